import Verif.Parser
import Mathlib.Data.List.Forall2
/-
The parser run twice, with contexts and simplifications that are related: a simulation.
-/
namespace Xprs

/-- The same outcome up to a relation of the results. -/
def RelR {α β : Type} (Q : α → β → Prop) : R α → R β → Prop
  | .ok a s, .ok b s' => Q a b ∧ s = s'
  | .err e s, .err e' s' => e = e' ∧ s = s'
  | .panic p, .panic p' => p = p'
  | .fuel, .fuel => True
  | _, _ => False

theorem RelR.bind {α β γ δ : Type} {Q : α → β → Prop} {P : γ → δ → Prop} {x : R α} {y : R β}
    {f : α → St → R γ} {g : β → St → R δ} (h : RelR Q x y)
    (hf : ∀ a b s, Q a b → RelR P (f a s) (g b s)) : RelR P (x.bind f) (y.bind g) := by
  cases x <;> cases y <;> first
    | exact False.elim h
    | skip
  · obtain ⟨h1, rfl⟩ := h; exact hf _ _ _ h1
  · exact h
  · exact h
  · exact h

theorem RelR.errEnd {α β : Type} {Q : α → β → Prop} (cfg : Cfg) (s : St) :
    RelR Q (errEnd cfg s) (errEnd cfg s) := by
  unfold Xprs.errEnd; cases subOne cfg s.pos <;> simp [RelR]
theorem RelR.errMissing {α β : Type} {Q : α → β → Prop} (cfg : Cfg) (s : St) :
    RelR Q (errMissing cfg s) (errMissing cfg s) := by
  unfold Xprs.errMissing; cases subOne cfg s.pos <;> simp [RelR]

/-- The two meanings of a name. -/
def RelI (Q : Elem → Elem → Prop) : Ident → Ident → Prop
  | .const x, .const y => Q (.num x) (.num y)
  | .var n, .var m => n = m ∧ Q (.var n) (.var m)
  | .func f, .func g => f.nbArgs = g.nbArgs ∧ ∀ as bs, List.Forall₂ Q as bs → Q (.call f as) (.call g bs)
  | _, _ => False

/-- What the simulation needs of a relation of trees. -/
structure Congruent (Q : Elem → Elem → Prop) (c c' : Context) : Prop where
  lit : ∀ t x, parseF64 t = some x → Q (.num x) (.num x)
  look : ∀ nm, RelI Q (lookup c nm) (lookup c' nm)
  un : ∀ {op a b}, Q a b → Q (.un op a) (.un op b)
  bin : ∀ {op a a' b b'}, Q a a' → Q b b' → Q (.bin op a b) (.bin op a' b')
  isNum : ∀ {a b}, Q a b → a.isNum = b.isNum

section
variable {Q : Elem → Elem → Prop} {c c' : Context} {cfg cfg' : Cfg} {w w' : World}
  {rec rec' : Nat → St → R Elem}

theorem argument_related (hr : ∀ p s, RelR Q (rec p s) (rec' p s)) (s : St) :
    RelR Q (argument cfg rec s) (argument cfg rec' s) := by
  have h := hr noPrec s
  unfold argument
  cases h1 : rec noPrec s <;> cases h2 : rec' noPrec s <;> rw [h1, h2] at h <;>
    first | exact False.elim h | exact h | skip
  obtain ⟨rfl, rfl⟩ := h
  simp only
  split
  · exact RelR.errMissing cfg _
  · exact ⟨rfl, rfl⟩

theorem forall2_append_one {as bs : List Elem} {a b : Elem} (h : List.Forall₂ Q as bs) (h' : Q a b) :
    List.Forall₂ Q (as ++ [a]) (bs ++ [b]) := by
  induction h with
  | nil => exact .cons h' .nil
  | cons h1 _ ih => exact .cons h1 ih

theorem parseArgs_related (hr : ∀ p s, RelR Q (rec p s) (rec' p s)) : ∀ (n : Nat) (as bs : List Elem) (s : St),
    List.Forall₂ Q as bs → RelR (List.Forall₂ Q) (parseArgs cfg rec n as s) (parseArgs cfg rec' n bs s)
  | 0, _, _, _, _ => trivial
  | n + 1, as, bs, s, h => by
    rw [parseArgs, parseArgs]
    refine RelR.bind (argument_related hr s) fun a b s1 hab => ?_
    have hl := forall2_append_one h hab
    simp only
    split
    · split
      · exact parseArgs_related hr n _ _ _ hl
      · split
        · exact ⟨hl, rfl⟩
        · exact ⟨rfl, rfl⟩
    · exact RelR.errEnd cfg _

theorem assertConsume_related (b : UInt8) (s : St) :
    RelR (fun _ _ => True) (assertConsume b s) (assertConsume b s) := by
  unfold assertConsume
  split
  · exact ⟨trivial, rfl⟩
  · exact ⟨rfl, rfl⟩

theorem parseIdent_related (hq : Congruent Q c c') (hr : ∀ p s, RelR Q (rec p s) (rec' p s)) (s : St) :
    RelR Q (parseIdent cfg c rec s) (parseIdent cfg c' rec' s) := by
  unfold parseIdent
  simp only
  have h := hq.look (s.rest.takeWhile isIdChar)
  cases h1 : lookup c (s.rest.takeWhile isIdChar) <;>
    cases h2 : lookup c' (s.rest.takeWhile isIdChar) <;> rw [h1, h2] at h <;>
    first | exact False.elim h | skip
  · rename_i f g
    obtain ⟨hn, hcall⟩ := h
    simp only
    split
    · refine RelR.bind (parseArgs_related hr _ _ _ _ .nil) fun as bs s3 hl => ?_
      refine RelR.bind (assertConsume_related _ s3) fun _ _ s4 _ => ?_
      unfold checkArity
      rw [hl.length_eq, hn]
      split
      · split
        · exact ⟨hcall _ _ hl, rfl⟩
        · split
          · exact ⟨rfl, rfl⟩
          · exact ⟨rfl, rfl⟩
      · exact ⟨hcall _ _ hl, rfl⟩
    · exact ⟨rfl, rfl⟩
  · exact ⟨h, rfl⟩
  · exact ⟨h.2, rfl⟩

theorem parseNumber_related (hq : Congruent Q c c') (s : St) : RelR Q (parseNumber s) (parseNumber s) := by
  unfold parseNumber
  simp only
  split
  · rename_i h; exact ⟨hq.lit _ _ h, rfl⟩
  · exact ⟨rfl, rfl⟩

theorem atom_related (hq : Congruent Q c c') (hr : ∀ p s, RelR Q (rec p s) (rec' p s)) (s : St) :
    RelR Q (atom cfg c rec s) (atom cfg c' rec' s) := by
  unfold atom
  simp only
  split
  · exact RelR.errEnd cfg _
  · split
    · exact parseNumber_related hq _
    · split
      · exact parseIdent_related hq hr _
      · split
        · exact RelR.bind (hr _ _) fun a b s1 h => ⟨hq.un h, rfl⟩
        · split
          · exact RelR.bind (hr _ _) fun a b s1 h => ⟨hq.un h, rfl⟩
          · split
            · exact RelR.bind (hr _ _) fun a b s1 h =>
                RelR.bind (assertConsume_related _ s1) fun _ _ s2 _ => ⟨h, rfl⟩
            · split
              · exact ⟨rfl, rfl⟩
              · exact ⟨rfl, rfl⟩

theorem opLoop_related (hq : Congruent Q c c') (hr : ∀ p s, RelR Q (rec p s) (rec' p s)) (p : Nat) :
    ∀ (n : Nat) (a b : Elem) (s : St), Q a b → RelR Q (opLoop cfg rec p n a s) (opLoop cfg rec' p n b s)
  | 0, _, _, _, _ => trivial
  | n + 1, a, b, s, h => by
    rw [opLoop, opLoop]
    have : opInfo cfg b p (trim s) = opInfo cfg a p (trim s) := by unfold opInfo; rw [hq.isNum h]
    simp only [this]
    split
    · exact ⟨h, rfl⟩
    · exact RelR.bind (hr _ _) fun a' b' s1 h' => opLoop_related hq hr p n _ _ _ (hq.bin h h')

theorem element_related (hq : Congruent Q c c')
    (hf : ∀ a b s, Q a b → RelR Q (finish cfg w a s) (finish cfg w' b s)) : ∀ (n p : Nat) (s : St),
    RelR Q (element cfg w c n p s) (element cfg w' c' n p s)
  | 0, _, _ => trivial
  | n + 1, p, s => by
    have hr := element_related hq hf n
    show RelR Q (elementF cfg w c _ p s) (elementF cfg w' c' _ p s)
    unfold elementF
    refine RelR.bind (atom_related hq hr s) fun a b s1 h => ?_
    simp only
    refine RelR.bind (opLoop_related hq hr p _ _ _ _ ?_) fun a b s2 h => hf _ _ _ h
    split
    · exact hq.un h
    · exact h

/-- The same result of `parseImpl` up to a relation of the trees. -/
def RelP (Q : Elem → Elem → Prop) : PRes → PRes → Prop
  | .ok x, .ok y => Q x.root y.root ∧ x.vars = findVars x.root [] ∧ y.vars = findVars y.root []
  | .err e, .err e' => e = e'
  | .panic p, .panic p' => p = p'
  | .fuel, .fuel => True
  | _, _ => False

theorem parseImpl_related (hq : Congruent Q c c')
    (hf : ∀ a b s, Q a b → RelR Q (finish cfg w a s) (finish cfg w' b s)) (input : Bytes) :
    RelP Q (parseImpl cfg w c input) (parseImpl cfg w' c' input) := by
  have h := element_related hq hf (input.length + 1) noPrec ⟨0, input⟩
  unfold parseImpl
  cases h1 : element cfg w c (input.length + 1) noPrec ⟨0, input⟩ <;>
    cases h2 : element cfg w' c' (input.length + 1) noPrec ⟨0, input⟩ <;> rw [h1, h2] at h <;>
    first | exact False.elim h | skip
  · obtain ⟨h, rfl⟩ := h
    simp only
    split
    · exact rfl
    · exact ⟨h, rfl, rfl⟩
  · exact h.1
  · exact h
  · trivial

end

end Xprs
