import Verif.Lemmas.Pretty
import Verif.Transcript
/-
What the REPL prints can be read back.
-/
namespace Xprs
open Spec

theorem line_eq : ∀ {a a' r r' : Bytes}, c!"\n" ∉ a → c!"\n" ∉ a' → a ++ c!"\n" :: r = a' ++ c!"\n" :: r' → a = a' ∧ r = r'
  | [], [], _, _, _, _, h => ⟨rfl, (List.cons.inj h).2⟩
  | [], c :: a', _, _, _, h', h => absurd (show c!"\n" ∈ c :: a' by rw [(List.cons.inj h).1]; simp) h'
  | c :: a, [], _, _, h, _, e => absurd (show c!"\n" ∈ c :: a by rw [← (List.cons.inj e).1]; simp) h
  | c :: a, c' :: a', _, _, h, h', e => by
    obtain ⟨rfl, e1⟩ := List.cons.inj e
    obtain ⟨rfl, e2⟩ := line_eq (fun hm => h (List.mem_cons_of_mem _ hm)) (fun hm => h' (List.mem_cons_of_mem _ hm)) e1
    exact ⟨rfl, e2⟩

theorem joinWith_no_nl {sep : Bytes} (hs : c!"\n" ∉ sep) : ∀ {ts : List Bytes}, (∀ t ∈ ts, c!"\n" ∉ t) → c!"\n" ∉ joinWith sep ts
  | [], _ => by simp [joinWith]
  | [a], h => h a (by simp)
  | a :: b :: ts, h => by
    rw [joinWith]
    · intro hm
      rcases List.mem_append.1 hm with hm | hm
      · rcases List.mem_append.1 hm with hm | hm
        · exact h a (by simp) hm
        · exact hs hm
      · exact joinWith_no_nl hs (fun t ht => h t (List.mem_cons_of_mem _ ht)) hm
    · simp

theorem name_no_nl {n : Bytes} (h : IsName n) : c!"\n" ∉ n := by
  intro hm
  have := plain_quoted h c!"\n" (by simp [quoted, hm])
  revert this; decide

section
variable {F : Func → Prop}

theorem show_no_nl {fmt : F64 → Bytes} (hf : ∀ v, c!"\n" ∉ fmt v) (hF : ∀ f, F f → IsName f.name) (e : Elem) :
    Legible F e → c!"\n" ∉ showE fmt e := by
  have hop : ∀ op, c!"\n" ∉ opText op := by intro op; cases op <;> decide
  induction e using Elem.ind with
  | num v => intro _; rw [showE]; exact hf v
  | var n => intro h; rw [showE]; exact name_no_nl h.name
  | un op a ih =>
    intro h
    have := ih h.un
    have := hop op
    simp_all [showE]
  | bin op l r ihl ihr =>
    intro h
    have := ihl h.left
    have := ihr h.right
    have := hop op
    simp_all [showE]
  | call f as ih =>
    intro h
    have h1 := name_no_nl (hF f h.fn.1)
    have h2 : c!"\n" ∉ joinWith b!", " (showL fmt as) := by
      refine joinWith_no_nl (by decide) fun t ht => ?_
      have : ∀ as : List Elem, showL fmt as = as.map (showE fmt) := by
        intro as
        induction as with
        | nil => rfl
        | cons a as ih => rw [showL, ih]; rfl
      rw [this] at ht
      obtain ⟨a, ha, rfl⟩ := List.mem_map.1 ht
      exact ih a ha (h.arg ha)
    simp_all [showE]

theorem pretty_shift (o : Oracle) (e : Xpr) : e.pretty o = (b!"Xprs {" ++ newline 1 ++ b!"root: ") ++ (shift 1 (prettyE e.root) ++
    (b!"," ++ newline 1 ++ b!"vars: " ++ (shift 1 (prettyList c!"{" c!"}" ((o.ord e.vars).map quoted)) ++ (b!"," ++ newline 0 ++ b!"}")))) := by
  rw [← shift_zero (e.pretty o), Xpr.pretty, shift_struct 0 (by decide)]
  simp only [List.flatMap_cons, List.flatMap_nil]
  rw [shift_field _ (by decide), shift_field _ (by decide)]
  simp [List.append_assoc]

/-- Expressions printed with `{:#?}`: the tree and the order of the variables can be read off,
whatever follows. -/
theorem pretty_xpr_eq (hc : Distinct debugF64) (hp : Plain debugF64) (hF : ∀ f, F f → IsName f.name)
    (hn : ∀ f f', F f → F f' → f.name = f'.name → f = f') {o o' : Oracle} {x y : Xpr}
    (hx : Legible F x.root) (hy : Legible F y.root) (vx : ∀ n ∈ o.ord x.vars, IsName n) (vy : ∀ n ∈ o'.ord y.vars, IsName n)
    {r r' : Bytes} (h : x.pretty o ++ r = y.pretty o' ++ r') : x.root = y.root ∧ o.ord x.vars = o'.ord y.vars ∧ r = r' := by
  rw [pretty_shift, pretty_shift] at h
  simp only [List.append_assoc] at h
  obtain ⟨h1, h2⟩ := pretty_eq hc hp hF hn x.root 1 y.root _ _ hx hy
    (List.append_cancel_left (List.append_cancel_left (List.append_cancel_left h)))
  obtain ⟨h3, h4⟩ := list_eq 1 (by decide) (by decide) (by decide) (o.ord x.vars) (o'.ord y.vars) (fun a ha b hb r r' h => by
      rw [shift_plain _ (plain_no_nl (plain_quoted (vx a ha))), shift_plain _ (plain_no_nl (plain_quoted (vy b hb)))] at h
      obtain ⟨h5, h6⟩ := quoted_eq (word_name (vx a ha)) (word_name (vy b hb)) h
      exact ⟨h5, (List.cons.inj h6).2⟩) _ _ (List.append_cancel_left (List.append_cancel_left (List.append_cancel_left h2)))
  exact ⟨h1, h3, List.append_cancel_left (List.append_cancel_left (List.append_cancel_left h4))⟩

end

theorem askOut_eq : ∀ {vs : List Bytes} {acc : HMap F64} {ls : List Line} {m : HMap F64} {rest : List Line},
    askLoop vs acc ls = some (m, rest) → askOut vs ls = vs.flatMap fun v => v ++ b!": "
  | [], _, _, _, _, _ => rfl
  | v :: vs, acc, ls, m, rest, h => by
    rw [askLoop] at h
    rw [askOut, List.flatMap_cons]
    split at h
    · rename_i x hx
      rw [askOut_eq h, hx]
    · cases h

/-- What is printed between the tree and the value. -/
def middle (vs : List Bytes) : Bytes :=
  b!"\nVariables: " ++ setDebug vs ++ b!"\n" ++ (if vs = [] then [] else b!"Please enter the following variables:\n") ++
    (vs.flatMap fun v => v ++ b!": ") ++ b!"Evaluated: "

/-- An answered expression. -/
theorem astOut_eq {w : World} {o : Oracle} {x : Xpr} {ls rest : List Line} {m : HMap F64} {v : F64}
    (ha : askLoop (o.ord x.vars) HMap.empty ls = some (m, rest)) (he : x.eval w m = .ok v) (r : Bytes) :
    astOut w o x ls ++ r = b!"Interpreted as: " ++ (x.show fmtF64 ++ c!"\n" :: (x.pretty o ++ (middle (o.ord x.vars) ++
      (debugF64 v ++ c!"\n" :: r)))) := by
  have : (o.ord x.vars = []) ↔ x.vars = [] := by
    constructor
    · intro h; have := (o.perm x.vars).length_eq; rw [h] at this; exact List.length_eq_zero_iff.1 this.symm
    · intro h; have := (o.perm x.vars).length_eq; rw [h] at this; rw [h]; exact List.length_eq_zero_iff.1 this
  unfold astOut middle
  rw [ha, askOut_eq ha]
  simp only [he, this]
  simp [List.append_assoc]

end Xprs
