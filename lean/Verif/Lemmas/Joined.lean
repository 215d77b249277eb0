import Verif.Spec.Joined
import Verif.PrettyError
import Verif.Lemmas.Pretty
/-
Putting what `core::fmt::builders` writes over several lines back on one (for C118).
-/
namespace Xprs
namespace Props
open Spec

/-- The characters passed over behind a line end. -/
def blankChar (c : UInt8) : Prop := c = c!" " ∨ c = c!"\n"

theorem flat_step {m : Mode} {st : List Bool} {c : UInt8} (h : m = .line ∨ ¬ blankChar c) (t : Bytes) :
    flat m st (c :: t) = (before m st c).1 ++ flat .line (before m st c).2 (c :: t) := by
  have hl : ∀ st, flat .line st (c :: t) = if t.head? = some c!"\n" ∧ c = c!"," then flat .comma st t
        else if t.head? = some c!"\n" ∧ opens c then c :: flat (.opened c) st t
        else c :: flat .line st t := by
    intro st
    conv => lhs; rw [flat.eq_def]
    rfl
  rw [hl]
  cases m with
  | line => rw [hl]; rfl
  | comma =>
    have hb : decide (c = c!" " ∨ c = c!"\n") = false := decide_eq_false (h.resolve_left (by simp))
    conv => lhs; rw [flat.eq_def]
    simp only [hb]
  | opened o =>
    have hb : decide (c = c!" " ∨ c = c!"\n") = false := decide_eq_false (h.resolve_left (by simp))
    conv => lhs; rw [flat.eq_def]
    simp only [hb]

theorem flat_line (st : List Bool) (c : UInt8) (t : Bytes) :
    flat .line st (c :: t) = if t.head? = some c!"\n" ∧ c = c!"," then flat .comma st t
        else if t.head? = some c!"\n" ∧ opens c then c :: flat (.opened c) st t
        else c :: flat .line st t := by
  conv => lhs; rw [flat.eq_def]
  rfl

theorem flat_blank {m : Mode} (hm : m ≠ .line) (st : List Bool) {c : UInt8} (hc : blankChar c) (t : Bytes) :
    flat m st (c :: t) = flat m st t := by
  have hb : decide (c = c!" " ∨ c = c!"\n") = true := decide_eq_true hc
  cases m with
  | line => exact absurd rfl hm
  | comma => conv => lhs; rw [flat.eq_def]
             simp only [hb]
  | opened o => conv => lhs; rw [flat.eq_def]
                simp only [hb]

theorem flat_newline {m : Mode} (hm : m ≠ .line) (st : List Bool) (d : Nat) (t : Bytes) :
    flat m st (newline d ++ t) = flat m st t := by
  unfold newline
  rw [List.cons_append, flat_blank hm st (.inr rfl)]
  generalize 4 * d = k
  induction k with
  | zero => rfl
  | succ k ih => rw [List.replicate_succ, List.cons_append, flat_blank hm st (.inl rfl), ih]

/-- A text without line ends that does not end with a comma or an opening bracket stays as it is. -/
def Flatten (t : Bytes) : Prop := c!"\n" ∉ t ∧ ∀ k, t.getLast? = some k → k ≠ c!"," ∧ ¬ opens k

theorem flat_copy (st : List Bool) (r : Bytes) : ∀ {t : Bytes}, Flatten t → flat .line st (t ++ r) = t ++ flat .line st r
  | [], _ => rfl
  | [c], h => by
    obtain ⟨h1, h2⟩ := h.2 c rfl
    rw [List.cons_append, List.nil_append, flat_line, if_neg fun e => h1 e.2, if_neg fun e => h2 e.2]
    rfl
  | c :: c' :: t, h => by
    have hn : ¬ (c' :: t ++ r).head? = some c!"\n" := by
      intro e
      exact h.1 (by cases e; simp)
    rw [List.cons_append, flat_line, if_neg fun e => hn e.1, if_neg fun e => hn e.1,
      flat_copy st r (t := c' :: t) ⟨fun e => h.1 (List.mem_cons_of_mem _ e), fun k hk => h.2 k (by
        rw [List.getLast?_cons_cons]; exact hk)⟩]
    rfl

/-- The text `p`, written at any depth, is `t` on one line. -/
structure Flats (t p : Bytes) : Prop where
  start : ∃ c l, p = c :: l ∧ ¬ blankChar c ∧ ¬ closes c
  flat : ∀ d st r, flat .line st (shift d p ++ r) = t ++ flat .line st r

theorem Flats.begin {t p : Bytes} (h : Flats t p) (d : Nat) :
    ∃ c l, shift d p = c :: l ∧ p.head? = some c ∧ ¬ blankChar c ∧ ¬ closes c := by
  obtain ⟨c, l, rfl, h1, h2⟩ := h.start
  exact ⟨c, _, shift_cons d (fun e => h1 (.inr e)) l, rfl, h1, h2⟩

theorem flats_plain {t : Bytes} (h : Flatten t) (hs : ∃ c l, t = c :: l ∧ ¬ blankChar c ∧ ¬ closes c) : Flats t t :=
  ⟨hs, fun d st r => by rw [shift_plain d h.1, flat_copy st r h]⟩

/-- The entries behind a comma. -/
theorem flat_entries (d : Nat) (st : List Bool) {close : UInt8} (hc : closes close) (r : Bytes) :
    ∀ es : List (Bytes × Bytes), (∀ e ∈ es, Flats e.1 e.2) →
    flat .comma st ((es.flatMap fun e => newline (d + 1) ++ shift (d + 1) e.2 ++ b!",") ++ newline d ++ close :: r) =
      (es.flatMap fun e => b!", " ++ e.1) ++ (if close = c!"}" ∧ st.head? = some true then b!" " else []) ++
        close :: flat .line st.tail r
  | [], _ => by
    have hb : ¬ blankChar close := by
      rintro (rfl | rfl) <;> exact absurd hc (by decide)
    have ho : ¬ opens close := by
      intro ho
      simp only [opens, closes, List.mem_cons, List.not_mem_nil, or_false] at ho hc
      rcases ho with rfl | rfl | rfl <;> simp at hc
    have hk : close ≠ c!"," := by rintro rfl; exact absurd hc (by decide)
    rw [List.flatMap_nil, List.flatMap_nil, List.nil_append, flat_newline (by simp), flat_step (.inr hb), flat_line,
      if_neg fun e => hk e.2, if_neg fun e => ho e.2]
    simp only [before, if_pos hc, List.nil_append]
  | e :: es, h => by
    have he := h e (List.mem_cons_self ..)
    have ih := flat_entries d st hc r es fun x hx => h x (List.mem_cons_of_mem _ hx)
    have hhead : ((es.flatMap fun e => newline (d + 1) ++ shift (d + 1) e.2 ++ b!",") ++ newline d ++ close :: r).head? =
        some c!"\n" := by
      cases es <;> simp [newline]
    obtain ⟨c, l, h1, -, h2, h3⟩ := he.begin (d + 1)
    have hf := he.flat (d + 1) st (c!"," :: ((es.flatMap fun e => newline (d + 1) ++ shift (d + 1) e.2 ++ b!",") ++ newline d ++ close :: r))
    rw [flat_line, if_pos ⟨hhead, rfl⟩, ih] at hf
    simp only [List.flatMap_cons, List.append_assoc] at hf ⊢
    rw [flat_newline (by simp)]
    rw [h1] at hf ⊢
    rw [List.cons_append, flat_step (.inr h2)]
    simp only [before, if_neg h3]
    have : c :: (l ++ (b!"," ++ ((es.flatMap fun e => newline (d + 1) ++ (shift (d + 1) e.2 ++ b!",")) ++ (newline d ++ close :: r)))) =
      c :: l ++ (c!"," :: ((es.flatMap fun e => newline (d + 1) ++ (shift (d + 1) e.2 ++ b!",")) ++ (newline d ++ close :: r))) := by
      simp
    rw [this, hf]

theorem join_flat (e : Bytes) : ∀ es : List Bytes, joinWith b!", " (e :: es) = e ++ es.flatMap fun x => b!", " ++ x
  | [] => by simp [joinWith]
  | f :: es => by rw [joinWith, join_flat f es]; all_goals simp

/-- A bracket with entries. -/
theorem flat_bracket (d : Nat) (st : List Bool) {o close : UInt8} (ho : opens o) (hc : closes close)
    (b : Bool) (es : List (Bytes × Bytes)) (hne : es ≠ []) (h : ∀ e ∈ es, Flats e.1 e.2)
    (hb : ∀ e ∈ es, ∀ c, e.2.head? = some c → (b = true ↔ o = c!"{" ∧ c ≠ c!"\"")) (r : Bytes) :
    flat .line st (o :: ((es.flatMap fun e => newline (d + 1) ++ shift (d + 1) e.2 ++ b!",") ++ newline d ++ close :: r)) =
      o :: ((if b then b!" " else []) ++ joinWith b!", " (es.map (·.1)) ++
        (if close = c!"}" ∧ b = true then b!" " else []) ++ close :: flat .line st r) := by
  cases es with
  | nil => exact absurd rfl hne
  | cons e es =>
    have he := h e (List.mem_cons_self ..)
    obtain ⟨c, l, h1, h1', h2, h3⟩ := he.begin (d + 1)
    have hb' := hb e (List.mem_cons_self ..) c h1'
    have ih := flat_entries d (b :: st) hc r es fun x hx => h x (List.mem_cons_of_mem _ hx)
    have hhead : ((es.flatMap fun e => newline (d + 1) ++ shift (d + 1) e.2 ++ b!",") ++ newline d ++ close :: r).head? =
        some c!"\n" := by
      cases es <;> simp [newline]
    have hf := he.flat (d + 1) (b :: st) (c!"," :: ((es.flatMap fun e => newline (d + 1) ++ shift (d + 1) e.2 ++ b!",") ++ newline d ++ close :: r))
    rw [flat_line, if_pos ⟨hhead, rfl⟩, ih] at hf
    have hoc : o ≠ c!"," := by rintro rfl; exact absurd ho (by decide)
    rw [flat_line, if_neg fun e => hoc e.2, if_pos ⟨by simp [newline], ho⟩]
    simp only [List.flatMap_cons, List.append_assoc] at hf ⊢
    rw [flat_newline (by simp)]
    rw [h1] at hf ⊢
    rw [List.cons_append, flat_step (.inr h2)]
    have hbe : before (.opened o) st c = (if b then b!" " else [], b :: st) := by
      unfold before
      cases b with
      | true => simp only [if_pos (hb'.1 rfl)]; rfl
      | false => simp only [if_neg fun h => absurd (hb'.2 h) (by simp)]; rfl
    rw [hbe]
    have : c :: (l ++ (b!"," ++ ((es.flatMap fun e => newline (d + 1) ++ (shift (d + 1) e.2 ++ b!",")) ++ (newline d ++ close :: r)))) =
      c :: l ++ (c!"," :: ((es.flatMap fun e => newline (d + 1) ++ (shift (d + 1) e.2 ++ b!",")) ++ (newline d ++ close :: r))) := by
      simp
    rw [this, hf, List.map_cons, join_flat, List.flatMap_map]
    cases b <;> simp

/-! ### The builders -/

/-- A name: letters only matter in so far as they are not punctuation. -/
def FlatName (n : Bytes) : Prop := n ≠ [] ∧ ∀ c ∈ n, plainChar c

theorem FlatName.flatten {n : Bytes} (h : FlatName n) : Flatten n := by
  refine ⟨plain_no_nl h.2, fun k hk => ?_⟩
  have := h.2 k (List.mem_of_getLast? hk)
  constructor
  · rintro rfl; exact absurd this (by decide)
  · intro ho
    simp only [opens, List.mem_cons, List.not_mem_nil, or_false] at ho
    rcases ho with rfl | rfl | rfl <;> exact absurd this (by decide)

theorem plain_begins {c : UInt8} (h : plainChar c) : ¬ blankChar c ∧ ¬ closes c := by
  constructor
  · rintro (rfl | rfl) <;> exact absurd h (by decide)
  · intro ho
    simp only [closes, List.mem_cons, List.not_mem_nil, or_false] at ho
    rcases ho with rfl | rfl | rfl <;> exact absurd h (by decide)

theorem FlatName.start {n : Bytes} (h : FlatName n) (t : Bytes) :
    ∃ c l, n ++ t = c :: l ∧ ¬ blankChar c ∧ ¬ closes c := by
  cases n with
  | nil => exact absurd rfl h.1
  | cons c l => exact ⟨c, l ++ t, rfl, plain_begins (h.2 c (List.mem_cons_self ..))⟩

theorem flats_name {n : Bytes} (h : FlatName n) : Flats n n :=
  flats_plain h.flatten (by have := h.start []; rwa [List.append_nil] at this)

theorem flats_fields {n : Bytes} (hn : FlatName n) (es : List (Bytes × Bytes)) (hne : es ≠ []) (h : ∀ e ∈ es, Flats e.1 e.2) :
    Flats (n ++ b!"(" ++ joinWith b!", " (es.map (·.1)) ++ b!")") (prettyFields n (es.map (·.2))) where
  start := by
    unfold prettyFields
    simp only [List.append_assoc]
    exact hn.start _
  flat d st r := by
    have e1 : prettyFields n (es.map (·.2)) = n ++ b!"(" ++ (c!"\n" :: (((es.map (·.2)).flatMap fun e => pad (e ++ b!",\n")) ++ [c!")"])) := by
      unfold prettyFields; simp [List.append_assoc]
    rw [e1, shift_append, shift_entries d _ (by decide), shift_append, shift_plain d hn.flatten.1, shift_plain d (t := b!"(") (by decide)]
    have := flat_bracket d st (o := c!"(") (close := c!")") (by decide) (by decide) false es hne h (by simp) r
    rw [List.flatMap_map]
    simp only [List.append_assoc] at this ⊢
    rw [flat_copy _ _ hn.flatten]
    simp only [List.cons_append, List.nil_append] at this ⊢
    rw [this]
    simp

theorem flats_struct {n : Bytes} (hn : FlatName n) (fs : List (Bytes × Bytes × Bytes)) (hne : fs ≠ [])
    (hf : ∀ f ∈ fs, FlatName f.1 ∧ f.1.head? ≠ some c!"\"" ∧ Flats f.2.1 f.2.2) :
    Flats (n ++ b!" { " ++ joinWith b!", " (fs.map fun f => f.1 ++ b!": " ++ f.2.1) ++ b!" }")
      (prettyStruct n (fs.map fun f => (f.1, f.2.2))) where
  start := by
    unfold prettyStruct
    simp only [List.append_assoc]
    exact hn.start _
  flat d st r := by
    rw [shift_struct d hn.flatten.1, List.flatMap_map]
    have key : ∀ f ∈ fs, Flats (f.1 ++ b!": " ++ f.2.1) (f.1 ++ b!": " ++ f.2.2) := by
      intro f h
      obtain ⟨h1, -, h2⟩ := hf f h
      refine ⟨by simp only [List.append_assoc]; exact h1.start _, fun d st r => ?_⟩
      rw [shift_field d h1.flatten.1]
      simp only [List.append_assoc]
      rw [flat_copy _ _ h1.flatten, flat_copy (t := b!": ") _ _ ⟨by decide, by decide⟩, h2.flat]
    have := flat_bracket d st (o := c!"{") (close := c!"}") (by decide) (by decide) true
      (fs.map fun f => (f.1 ++ b!": " ++ f.2.1, f.1 ++ b!": " ++ f.2.2)) (by simpa using hne) (by
        intro e he
        obtain ⟨f, hf', rfl⟩ := List.mem_map.1 he
        exact key f hf') (by
        intro e he c hc
        obtain ⟨f, hf', rfl⟩ := List.mem_map.1 he
        obtain ⟨h1, h2, -⟩ := hf f hf'
        refine ⟨fun _ => ⟨rfl, ?_⟩, fun _ => rfl⟩
        rintro rfl
        refine h2 ?_
        cases h3 : f.1 with
        | nil => exact absurd h3 h1.1
        | cons a l => rw [h3] at hc; simpa using hc) r
    rw [List.flatMap_map, List.map_map] at this
    have e2 : n ++ b!" {" = n ++ (b!" " ++ b!"{") := rfl
    rw [e2]
    simp only [List.append_assoc] at this ⊢
    rw [flat_copy _ _ hn.flatten, flat_copy (t := b!" ") _ _ ⟨by decide, by decide⟩]
    simp only [List.cons_append, List.nil_append] at this ⊢
    rw [this]
    simp [Function.comp_def]

theorem flats_list {o c : UInt8} (ho : opens o) (hc : closes c) (es : List (Bytes × Bytes)) (h : ∀ e ∈ es, Flats e.1 e.2)
    (hq : ∀ e ∈ es, o = c!"{" → e.2.head? = some c!"\"") :
    Flats (o :: (joinWith b!", " (es.map (·.1)) ++ [c])) (prettyList o c (es.map (·.2))) where
  start := by
    refine ⟨o, _, rfl, ?_, ?_⟩
    · rintro (rfl | rfl) <;> exact absurd ho (by decide)
    · intro hc
      simp only [opens, closes, List.mem_cons, List.not_mem_nil, or_false] at ho hc
      rcases ho with rfl | rfl | rfl <;> simp at hc
  flat d st r := by
    have ho' : o ≠ c!"\n" := by rintro rfl; exact absurd ho (by decide)
    have hc' : c ≠ c!"\n" := by rintro rfl; exact absurd hc (by decide)
    rw [shift_list d ho' hc']
    by_cases hne : es = []
    · subst hne
      rw [List.map_nil, if_pos rfl]
      refine flat_copy st r (t := [o, c]) ⟨by simp [Ne.symm ho', Ne.symm hc'], ?_⟩
      intro k hk
      cases hk
      constructor
      · rintro rfl; exact absurd hc (by decide)
      · intro ho
        simp only [opens, closes, List.mem_cons, List.not_mem_nil, or_false] at ho hc
        rcases ho with rfl | rfl | rfl <;> simp at hc
    · rw [if_neg (by simpa using hne), List.flatMap_map]
      have := flat_bracket d st ho hc false es hne h (by
        intro e he k hk
        refine ⟨fun h => (by cases h), fun h => ?_⟩
        rw [hq e he h.1] at hk
        cases hk
        exact absurd rfl h.2) r
      simp only [List.cons_append, List.append_assoc, List.nil_append] at this ⊢
      rw [this]
      simp

end Props
end Xprs
