import Verif.Pretty
import Verif.Spec.Pretty
import Verif.Lemmas.Shown
/-
The indented form of expressions.
-/
namespace Xprs
open Spec

/-- The text further inside. -/
def shift (d : Nat) (t : Bytes) : Bytes := t.flatMap fun c => if c = c!"\n" then newline d else [c]

theorem shift_append (d : Nat) (a b : Bytes) : shift d (a ++ b) = shift d a ++ shift d b := List.flatMap_append
theorem shift_cons (d : Nat) {c : UInt8} (hc : c ≠ c!"\n") (t : Bytes) : shift d (c :: t) = c :: shift d t := by
  unfold shift; rw [List.flatMap_cons, if_neg hc]; rfl
theorem shift_nl (d : Nat) (t : Bytes) : shift d (c!"\n" :: t) = newline d ++ shift d t := by
  unfold shift; rw [List.flatMap_cons, if_pos rfl]

theorem shift_plain (d : Nat) : ∀ {t : Bytes}, c!"\n" ∉ t → shift d t = t
  | [], _ => rfl
  | c :: t, h => by
    rw [shift_cons d (fun e => h (by simp [e])), shift_plain d (fun e => h (by simp [e]))]

theorem newline_zero : newline 0 = b!"\n" := rfl

theorem shift_zero (t : Bytes) : shift 0 t = t := by
  unfold shift
  induction t with
  | nil => rfl
  | cons c t ih =>
    rw [List.flatMap_cons, ih]
    split
    · rename_i h; rw [newline_zero, h]; rfl
    · rfl

theorem shift_blanks (d k : Nat) : shift d (List.replicate k c!" ") = List.replicate k c!" " :=
  shift_plain d (by rw [List.mem_replicate]; rintro ⟨-, h⟩; exact absurd h (by decide))

theorem shift_newline (d k : Nat) : shift d (newline k) = newline (d + k) := by
  unfold newline
  rw [shift_nl, shift_blanks]
  unfold newline
  rw [List.cons_append, List.replicate_append_replicate, Nat.mul_add]

theorem shift_shift (d k : Nat) (t : Bytes) : shift d (shift k t) = shift (d + k) t := by
  induction t with
  | nil => rfl
  | cons c t ih =>
    by_cases hc : c = c!"\n"
    · subst hc
      rw [shift_nl, shift_nl, shift_append, ih, shift_newline]
    · rw [shift_cons k hc, shift_cons d hc, shift_cons _ hc, ih]

theorem padGo_entry (t : Bytes) : padGo false (t ++ b!",\n") = shift 1 t ++ b!",\n" := by
  induction t with
  | nil => decide +kernel
  | cons c t ih =>
    by_cases hc : c = c!"\n"
    · subst hc
      rw [List.cons_append, padGo]
      have hb : (c!"\n" == c!"\n") = true := by decide
      rw [hb]
      have : ∀ l, l ≠ [] → padGo true l = b!"    " ++ padGo false l := by
        intro l hl
        cases l with
        | nil => exact absurd rfl hl
        | cons a l => simp [padGo]
      rw [this _ (by simp), ih, shift_nl]
      rfl
    · rw [List.cons_append, padGo]
      have hb : (c == c!"\n") = false := by simpa using hc
      rw [hb, ih, shift_cons 1 hc]
      rfl

theorem pad_entry (t : Bytes) : pad (t ++ b!",\n") = b!"    " ++ shift 1 t ++ b!",\n" := by
  unfold pad
  rw [List.append_assoc, ← padGo_entry]
  cases t with
  | nil => decide +kernel
  | cons c t => simp [padGo]

theorem entry_shift (d : Nat) (t : Bytes) :
    newline d ++ shift d (b!"    " ++ shift 1 t ++ b!",") = newline (d + 1) ++ shift (d + 1) t ++ b!"," := by
  rw [shift_append, shift_append, shift_shift, shift_plain d (t := b!"    ") (by decide),
    shift_plain d (t := b!",") (by decide)]
  have : newline (d + 1) = newline d ++ b!"    " := by
    unfold newline
    rw [Nat.mul_add, ← List.replicate_append_replicate]
    rfl
  rw [this]
  simp [List.append_assoc]

theorem shift_tuple (d : Nat) {n : Bytes} (hn : c!"\n" ∉ n) (t : Bytes) :
    shift d (prettyTuple n t) = n ++ b!"(" ++ newline (d + 1) ++ shift (d + 1) t ++ b!"," ++ newline d ++ b!")" := by
  have e : prettyTuple n t = (n ++ b!"(") ++ (b!"\n" ++ ((b!"    " ++ shift 1 t ++ b!",") ++ (b!"\n" ++ b!")"))) := by
    unfold prettyTuple
    rw [pad_entry]
    simp [List.append_assoc]
  have h1 : c!"\n" ∉ n ++ b!"(" := by
    simp only [List.mem_append, not_or]; exact ⟨hn, by decide⟩
  have hnl : shift d b!"\n" = newline d := by
    simp [shift]
  rw [e, shift_append, shift_plain d h1, shift_append, hnl, shift_append, ← List.append_assoc (newline d), entry_shift,
    shift_append, hnl, shift_plain d (t := b!")") (by decide)]
  simp [List.append_assoc]

/-- Entries between brackets. -/
theorem shift_entries (d : Nat) (close : UInt8) (hc : close ≠ c!"\n") : ∀ es : List Bytes,
    shift d (c!"\n" :: ((es.flatMap fun e => pad (e ++ b!",\n")) ++ [close])) =
      (es.flatMap fun e => newline (d + 1) ++ shift (d + 1) e ++ b!",") ++ newline d ++ [close]
  | [] => by
    rw [shift_nl]
    simp only [List.flatMap_nil, List.nil_append]
    rw [shift_plain d (by simp; exact fun h => hc h.symm)]
  | e :: es => by
    have ih := shift_entries d close hc es
    have e1 : c!"\n" :: (((e :: es).flatMap fun e => pad (e ++ b!",\n")) ++ [close]) =
        b!"\n" ++ ((b!"    " ++ shift 1 e ++ b!",") ++ (c!"\n" :: ((es.flatMap fun e => pad (e ++ b!",\n")) ++ [close]))) := by
      rw [List.flatMap_cons, pad_entry]
      simp [List.append_assoc]
    have hnl : shift d b!"\n" = newline d := by
      simp [shift]
    rw [e1, shift_append, hnl, shift_append, ← List.append_assoc, entry_shift, ih, List.flatMap_cons]
    simp [List.append_assoc]

theorem shift_struct (d : Nat) {n : Bytes} (hn : c!"\n" ∉ n) (fs : List (Bytes × Bytes)) :
    shift d (prettyStruct n fs) = n ++ b!" {" ++
      (fs.flatMap fun f => newline (d + 1) ++ shift (d + 1) (f.1 ++ b!": " ++ f.2) ++ b!",") ++ newline d ++ b!"}" := by
  have e : prettyStruct n fs = (n ++ b!" {") ++ (c!"\n" :: (((fs.map fun f => f.1 ++ b!": " ++ f.2).flatMap fun e =>
      pad (e ++ b!",\n")) ++ [c!"}"])) := by
    unfold prettyStruct
    rw [List.flatMap_map]
    simp [List.append_assoc]
  have h1 : c!"\n" ∉ n ++ b!" {" := by
    simp only [List.mem_append, not_or]; exact ⟨hn, by decide⟩
  rw [e, shift_append, shift_plain d h1, shift_entries d _ (by decide), List.flatMap_map]
  simp [List.append_assoc]

theorem shift_list (d : Nat) {o c : UInt8} (ho : o ≠ c!"\n") (hc : c ≠ c!"\n") (es : List Bytes) :
    shift d (prettyList o c es) = if es = [] then [o, c] else
      o :: ((es.flatMap fun e => newline (d + 1) ++ shift (d + 1) e ++ b!",") ++ newline d ++ [c]) := by
  unfold prettyList
  split
  · rw [shift_plain d]
    · rfl
    · simp only [List.nil_append, List.mem_cons, List.not_mem_nil, or_false, not_or]
      exact ⟨fun h => ho h.symm, fun h => hc h.symm⟩
  · rw [shift_cons d ho, List.cons_append, shift_entries d c hc]

/-! ### The layout -/

/-- A byte that is copied. -/
def plainChar (c : UInt8) : Prop := c ∉ b!"([{)]}, \n"
instance (c : UInt8) : Decidable (plainChar c) := inferInstanceAs (Decidable (_ ∉ _))

theorem layout_plain {c : UInt8} (h : plainChar c) (d : Nat) (t : Bytes) : layout d (c :: t) = c :: layout d t := by
  simp only [plainChar, List.mem_cons, List.not_mem_nil, or_false, not_or] at h
  have ho : ¬ opens c := by
    simp only [opens, List.mem_cons, List.not_mem_nil, or_false, not_or]; exact ⟨h.1, h.2.1, h.2.2.1⟩
  have hc : ¬ closes c := by
    simp only [closes, List.mem_cons, List.not_mem_nil, or_false, not_or]
    exact ⟨h.2.2.2.1, h.2.2.2.2.1, h.2.2.2.2.2.1⟩
  rw [layout.eq_def]
  simp only [if_neg ho, if_neg hc]
  rw [if_neg h.2.2.2.2.2.2.1, if_neg (fun e => h.2.2.2.2.2.2.2.1 e.1)]

theorem layout_word (d : Nat) : ∀ {n : Bytes}, (∀ c ∈ n, plainChar c) → ∀ t, layout d (n ++ t) = n ++ layout d t
  | [], _, _ => rfl
  | c :: n, h, t => by
    rw [List.cons_append, layout_plain (h c (by simp)), layout_word d (fun x hx => h x (by simp [hx]))]
    rfl

theorem layout_blank {c : UInt8} (h : c ≠ c!"}") (d : Nat) (t : Bytes) : layout d (c!" " :: c :: t) = c!" " :: layout d (c :: t) := by
  rw [layout.eq_def]
  simp only [if_neg (show ¬ opens c!" " by decide), if_neg (show ¬ closes c!" " by decide)]
  rw [if_neg (by decide), if_neg]
  rintro ⟨-, h'⟩
  exact h (by simpa using h')

theorem layout_close {c : UInt8} (h : closes c) (d : Nat) (t : Bytes) :
    layout (d + 1) (c :: t) = b!"," ++ newline d ++ c :: layout d t := by
  have ho : ¬ opens c := by
    intro ho
    revert h ho
    simp only [opens, closes, List.mem_cons, List.not_mem_nil, or_false]
    rintro (rfl | rfl | rfl) (h | h | h) <;> exact absurd h (by decide)
  rw [layout.eq_def]
  simp only [if_neg ho, if_pos h]
  rfl

theorem layout_blank_close (d : Nat) (t : Bytes) : layout d (c!" " :: c!"}" :: t) = layout d (c!"}" :: t) := by
  rw [layout.eq_def]
  simp only [if_neg (show ¬ opens c!" " by decide), if_neg (show ¬ closes c!" " by decide)]
  simp

theorem layout_comma (d : Nat) (t : Bytes) : layout d (c!"," :: c!" " :: t) = b!"," ++ newline d ++ layout d t := by
  rw [layout.eq_def]
  simp only [if_neg (show ¬ opens c!"," by decide), if_neg (show ¬ closes c!"," by decide)]
  rfl

/-- A byte that can begin an entry. -/
def startChar (c : UInt8) : Prop := ¬ closes c ∧ c ≠ c!" "
instance (c : UInt8) : Decidable (startChar c) := inferInstanceAs (Decidable (_ ∧ _))

theorem layout_open {o c : UInt8} (ho : opens o) (hc : startChar c) (d : Nat) (t : Bytes) :
    layout d (o :: c :: t) = o :: (newline (d + 1) ++ layout (d + 1) (c :: t)) := by
  conv => lhs; rw [layout.eq_def]
  simp only [if_pos ho]
  rw [if_neg hc.1, if_neg hc.2]

theorem layout_open' {o : UInt8} (ho : opens o) {t : Bytes} (ht : ∃ c l, t = c :: l ∧ startChar c) (d : Nat) (r : Bytes) :
    layout d (o :: (t ++ r)) = o :: (newline (d + 1) ++ layout (d + 1) (t ++ r)) := by
  obtain ⟨c, l, rfl, hs⟩ := ht
  exact layout_open ho hs d (l ++ r)

theorem layout_open_blank {o : UInt8} (ho : opens o) (d : Nat) (t : Bytes) :
    layout d (o :: c!" " :: t) = o :: (newline (d + 1) ++ layout (d + 1) t) := by
  conv => lhs; rw [layout.eq_def]
  simp only [if_pos ho]
  rw [if_neg (by decide), if_pos trivial]

theorem layout_empty {o c : UInt8} (ho : opens o) (hc : closes c) (d : Nat) (t : Bytes) :
    layout d (o :: c :: t) = o :: c :: layout d t := by
  conv => lhs; rw [layout.eq_def]
  simp only [if_pos ho]
  rw [if_pos hc]

/-- `t` is laid out as `p`. -/
structure Lays (t p : Bytes) : Prop where
  start : ∃ c l, t = c :: l ∧ startChar c
  lay : ∀ d r, layout d (t ++ r) = shift d p ++ layout d r

theorem plain_no_nl {n : Bytes} (h : ∀ c ∈ n, plainChar c) : c!"\n" ∉ n :=
  fun hm => absurd (h _ hm) (by decide)

theorem plain_start {c : UInt8} (h : plainChar c) : startChar c := by
  simp only [plainChar, List.mem_cons, List.not_mem_nil, or_false, not_or] at h
  refine ⟨?_, h.2.2.2.2.2.2.2.1⟩
  simp only [closes, List.mem_cons, List.not_mem_nil, or_false, not_or]
  exact ⟨h.2.2.2.1, h.2.2.2.2.1, h.2.2.2.2.2.1⟩

theorem lays_plain {n : Bytes} (hn : n ≠ []) (h : ∀ c ∈ n, plainChar c) : Lays n n where
  start := by
    cases n with
    | nil => exact absurd rfl hn
    | cons c l => exact ⟨c, l, rfl, plain_start (h c (by simp))⟩
  lay d r := by rw [layout_word d h, shift_plain d (plain_no_nl h)]

theorem lays_tuple {n t p : Bytes} (hn : n ≠ []) (h : ∀ c ∈ n, plainChar c) (ht : Lays t p) :
    Lays (n ++ b!"(" ++ t ++ b!")") (prettyTuple n p) where
  start := by
    cases n with
    | nil => exact absurd rfl hn
    | cons c l => exact ⟨c, l ++ b!"(" ++ t ++ b!")", by simp, plain_start (h c (by simp))⟩
  lay d r := by
    have e : n ++ b!"(" ++ t ++ b!")" ++ r = n ++ (c!"(" :: (t ++ (c!")" :: r))) := by simp
    rw [e, layout_word d h, shift_tuple d (plain_no_nl h)]
    rw [layout_open' (by decide) ht.start, ht.lay, layout_close (by decide)]
    simp [List.append_assoc]

/-- Entries separated by commas. -/
theorem lays_entries (d : Nat) (es : List (Bytes × Bytes)) (hne : es ≠ []) (h : ∀ e ∈ es, Lays e.1 e.2) (cl : Bytes) (close : UInt8)
    (hcl : ∀ r, layout (d + 1) (cl ++ r) = b!"," ++ newline d ++ close :: layout d r) (r : Bytes) :
    newline (d + 1) ++ layout (d + 1) (joinWith b!", " (es.map (·.1)) ++ (cl ++ r)) =
      (es.flatMap fun e => newline (d + 1) ++ shift (d + 1) e.2 ++ b!",") ++ newline d ++ close :: layout d r := by
  induction es with
  | nil => exact absurd rfl hne
  | cons e es ih =>
    cases es with
    | nil =>
      simp only [List.map_cons, List.map_nil, joinWith, List.flatMap_cons, List.flatMap_nil]
      rw [(h e (by simp)).lay, hcl]
      simp [List.append_assoc]
    | cons e' es =>
      have := ih (by simp) (fun x hx => h x (List.mem_cons_of_mem _ hx))
      rw [List.flatMap_cons, List.append_assoc, List.append_assoc, ← List.append_assoc (List.flatMap _ _), ← this]
      simp only [List.map_cons, joinWith, List.append_assoc]
      rw [(h e (by simp)).lay]
      simp only [List.cons_append, List.nil_append]
      rw [layout_comma]
      simp

theorem join_start {es : List (Bytes × Bytes)} (hne : es ≠ []) (h : ∀ e ∈ es, Lays e.1 e.2) :
    ∃ c l, joinWith b!", " (es.map (·.1)) = c :: l ∧ startChar c := by
  cases es with
  | nil => exact absurd rfl hne
  | cons e es =>
    obtain ⟨c, l, hc, hs⟩ := (h e (by simp)).start
    cases es with
    | nil => exact ⟨c, l, by simpa [joinWith] using hc, hs⟩
    | cons e' es => exact ⟨c, l ++ b!", " ++ joinWith b!", " ((e' :: es).map (·.1)), by simp [joinWith, hc], hs⟩

theorem lays_field {n t p : Bytes} (hn : n ≠ []) (h : ∀ c ∈ n, plainChar c) (ht : Lays t p) :
    Lays (n ++ b!": " ++ t) (n ++ b!": " ++ p) where
  start := by
    cases n with
    | nil => exact absurd rfl hn
    | cons c l => exact ⟨c, l ++ b!": " ++ t, by simp, plain_start (h c (by simp))⟩
  lay d r := by
    obtain ⟨c, l, hc, hs⟩ := ht.start
    have hcl : c ≠ c!"}" := by rintro rfl; exact hs.1 (by decide)
    have e : n ++ b!": " ++ t ++ r = n ++ (c!":" :: c!" " :: (t ++ r)) := by simp
    rw [e, layout_word d h, layout_plain (by decide), hc, List.cons_append, layout_blank hcl, ← List.cons_append, ← hc, ht.lay,
      shift_append, shift_append, shift_plain d (plain_no_nl h), shift_plain d (t := b!": ") (by decide)]
    simp [List.append_assoc]

theorem lays_struct {n : Bytes} (hn : n ≠ []) (h : ∀ c ∈ n, plainChar c) (fs : List (Bytes × Bytes × Bytes)) (hne : fs ≠ [])
    (hf : ∀ f ∈ fs, f.1 ≠ [] ∧ (∀ c ∈ f.1, plainChar c) ∧ Lays f.2.1 f.2.2) :
    Lays (n ++ b!" { " ++ joinWith b!", " (fs.map fun f => f.1 ++ b!": " ++ f.2.1) ++ b!" }")
      (prettyStruct n (fs.map fun f => (f.1, f.2.2))) where
  start := by
    cases n with
    | nil => exact absurd rfl hn
    | cons c l => exact ⟨c, _, by simp only [List.cons_append]; rfl, plain_start (h c (by simp))⟩
  lay d r := by
    let es := fs.map fun f => (f.1 ++ b!": " ++ f.2.1, f.1 ++ b!": " ++ f.2.2)
    have hes : ∀ e ∈ es, Lays e.1 e.2 := by
      intro e he
      obtain ⟨f, hfm, rfl⟩ := List.mem_map.1 he
      obtain ⟨h1, h2, h3⟩ := hf f hfm
      exact lays_field h1 h2 h3
    have hes0 : es ≠ [] := by simpa [es] using hne
    have key := lays_entries d es hes0 hes b!" }" c!"}" (fun r => by
      simp only [List.cons_append, List.nil_append]
      rw [layout_blank_close, layout_close (by decide)]
      simp) r
    have e0 : es.map (·.1) = fs.map fun f => f.1 ++ b!": " ++ f.2.1 := by
      simp only [es, List.map_map]; rfl
    rw [e0] at key
    have e : n ++ b!" { " ++ joinWith b!", " (fs.map fun f => f.1 ++ b!": " ++ f.2.1) ++ b!" }" ++ r =
        n ++ (c!" " :: c!"{" :: c!" " :: (joinWith b!", " (fs.map fun f => f.1 ++ b!": " ++ f.2.1) ++ (b!" }" ++ r))) := by
      simp
    rw [e, layout_word d h, layout_blank (by decide), layout_open_blank (by decide), key, shift_struct d (plain_no_nl h),
      List.flatMap_map, List.flatMap_map]
    simp [List.append_assoc]

theorem lays_list {o c : UInt8} (ho : opens o) (hc : closes c) (es : List (Bytes × Bytes)) (h : ∀ e ∈ es, Lays e.1 e.2)
    (hs : startChar o) : Lays (o :: (joinWith b!", " (es.map (·.1)) ++ [c])) (prettyList o c (es.map (·.2))) where
  start := ⟨o, _, rfl, hs⟩
  lay d r := by
    have ho' : o ≠ c!"\n" := by rintro rfl; exact absurd ho (by decide)
    have hc' : c ≠ c!"\n" := by rintro rfl; exact absurd hc (by decide)
    rw [shift_list d ho' hc']
    cases es with
    | nil =>
      simp only [List.map_nil, joinWith, if_pos, List.nil_append, List.cons_append]
      exact layout_empty ho hc d r
    | cons e es =>
      have key := lays_entries d (e :: es) (by simp) h [c] c (fun r => by
        simp only [List.cons_append, List.nil_append]
        rw [layout_close hc]
        simp) r
      rw [if_neg (by simp), List.cons_append, List.append_assoc, layout_open' ho (join_start (es := e :: es) (by simp) h), key,
        List.flatMap_map]
      simp [List.append_assoc]

/-! ### Expressions -/

section
variable {F : Func → Prop}

theorem plain_name {n : Bytes} (h : IsName n) : ∀ c ∈ n, plainChar c := by
  intro c hc hs
  have := h.2 c hc
  revert this
  simp only [List.mem_cons, List.not_mem_nil, or_false] at hs
  rcases hs with rfl | rfl | rfl | rfl | rfl | rfl | rfl | rfl | rfl <;> decide

theorem plain_quoted {n : Bytes} (h : IsName n) : ∀ c ∈ quoted n, plainChar c := by
  intro c hc
  simp only [quoted, List.mem_append, List.mem_cons, List.not_mem_nil, or_false] at hc
  rcases hc with (rfl | hc) | rfl
  · decide
  · exact plain_name h c hc
  · decide

theorem lays_quoted {n : Bytes} (h : IsName n) : Lays (quoted n) (quoted n) :=
  lays_plain (by simp [quoted]) (plain_quoted h)

theorem lays_op (op : Op) : Lays (opDebug op) (opDebug op) := by
  cases op <;> exact lays_plain (by decide) (by decide)

theorem lays_fn (p : FnPtr) : Lays (fnDebug p) (fnDebug p) := by
  cases p with
  | builtin _ => exact lays_plain (n := b!"Static") (by decide) (by decide)
  | static _ => exact lays_plain (n := b!"Static") (by decide) (by decide)
  | dyn _ => exact lays_plain (n := b!"Dyn") (by decide) (by decide)

theorem plain_digit {c : UInt8} (h : isDigit c = true) : plainChar c := by
  intro hs
  revert h
  simp only [List.mem_cons, List.not_mem_nil, or_false] at hs
  rcases hs with rfl | rfl | rfl | rfl | rfl | rfl | rfl | rfl | rfl <;> decide

theorem lays_opt (hd : ∀ n, decimal n ≠ [] ∧ ∀ c ∈ decimal n, isDigit c = true) (o : Option Nat) :
    Lays (optDebug o) (prettyOpt o) := by
  cases o with
  | none => exact lays_plain (by decide) (by decide)
  | some n =>
    exact lays_tuple (n := b!"Some") (by decide) (by decide)
      (lays_plain (hd n).1 fun c hc => plain_digit ((hd n).2 c hc))

theorem lays_func (hd : ∀ n, decimal n ≠ [] ∧ ∀ c ∈ decimal n, isDigit c = true) {f : Func} (hf : IsName f.name) :
    Lays (funcDebug f) (prettyFunc f) := by
  have := lays_struct (n := b!"Function") (by decide) (by decide)
    [(b!"name", quoted f.name, quoted f.name), (b!"func", fnDebug f.func, fnDebug f.func),
      (b!"nb_args", optDebug f.nbArgs, prettyOpt f.nbArgs)] (by simp) (by
      intro x hx
      simp only [List.mem_cons, List.not_mem_nil, or_false] at hx
      rcases hx with rfl | rfl | rfl
      · exact ⟨by simp, by dsimp only; decide, lays_quoted hf⟩
      · exact ⟨by simp, by dsimp only; decide, lays_fn _⟩
      · exact ⟨by simp, by dsimp only; decide, lays_opt hd _⟩)
  simpa [funcDebug, prettyFunc, joinWith, List.append_assoc] using this

theorem prettyL_map (as : List Elem) : prettyL as = as.map prettyE := by
  induction as with
  | nil => rfl
  | cons a as ih => rw [prettyL, ih]; rfl

/-- How numbers have to be printed. -/
structure Plain (fmt : F64 → Bytes) : Prop where
  ne : ∀ v, fmt v ≠ []
  plain : ∀ v, ∀ c ∈ fmt v, plainChar c

theorem lays_debug (hp : Plain debugF64) (hd : ∀ n, decimal n ≠ [] ∧ ∀ c ∈ decimal n, isDigit c = true)
    (hF : ∀ f, F f → IsName f.name) (e : Elem) : Legible F e → Lays (debugE e) (prettyE e) := by
  induction e using Elem.ind with
  | num v =>
    intro _
    exact lays_tuple (n := b!"Number") (by decide) (by decide) (lays_plain (hp.ne v) (hp.plain v))
  | var n =>
    intro he
    exact lays_tuple (n := b!"Variable") (by decide) (by decide) (lays_quoted he.name)
  | un op a ih =>
    intro he
    have := lays_tuple (n := b!"UnOp") (by decide) (by decide) (lays_struct (n := b!"UnOp") (by decide) (by decide)
      [(b!"op", opDebug op, opDebug op), (b!"operand", debugE a, prettyE a)] (by simp) (by
        intro x hx
        simp only [List.mem_cons, List.not_mem_nil, or_false] at hx
        rcases hx with rfl | rfl
        · exact ⟨by simp, by dsimp only; decide, lays_op _⟩
        · exact ⟨by simp, by dsimp only; decide, ih he.un⟩))
    simpa [debugE, prettyE, joinWith, List.append_assoc] using this
  | bin op x y ihl ihr =>
    intro he
    have := lays_tuple (n := b!"BinOp") (by decide) (by decide) (lays_struct (n := b!"BinOp") (by decide) (by decide)
      [(b!"op", opDebug op, opDebug op), (b!"lhs", debugE x, prettyE x), (b!"rhs", debugE y, prettyE y)] (by simp) (by
        intro x hx
        simp only [List.mem_cons, List.not_mem_nil, or_false] at hx
        rcases hx with rfl | rfl | rfl
        · exact ⟨by simp, by dsimp only; decide, lays_op _⟩
        · exact ⟨by simp, by dsimp only; decide, ihl he.left⟩
        · exact ⟨by simp, by dsimp only; decide, ihr he.right⟩))
    simpa [debugE, prettyE, joinWith, List.append_assoc] using this
  | call f as ih =>
    intro he
    have hl := lays_list (o := c!"[") (c := c!"]") (by decide) (by decide) (as.map fun a => (debugE a, prettyE a)) (by
      intro x hx
      obtain ⟨a, ha, rfl⟩ := List.mem_map.1 hx
      exact ih a ha (he.arg ha)) (by decide)
    have e1 : (as.map fun a => (debugE a, prettyE a)).map (·.1) = debugL as := by
      rw [debugL_map, List.map_map]; rfl
    have e2 : (as.map fun a => (debugE a, prettyE a)).map (·.2) = prettyL as := by
      rw [prettyL_map, List.map_map]; rfl
    rw [e1, e2] at hl
    have := lays_tuple (n := b!"Function") (by decide) (by decide) (lays_struct (n := b!"FunctionCall") (by decide) (by decide)
      [(b!"desc", funcDebug f, prettyFunc f), (b!"args", c!"[" :: (joinWith b!", " (debugL as) ++ [c!"]"]), prettyList c!"[" c!"]" (prettyL as))] (by simp) (by
        intro x hx
        simp only [List.mem_cons, List.not_mem_nil, or_false] at hx
        rcases hx with rfl | rfl
        · exact ⟨by simp, by dsimp only; decide, lays_func hd (hF f he.fn.1)⟩
        · exact ⟨by simp, by dsimp only; decide, hl⟩))
    simpa [debugE, prettyE, joinWith, List.append_assoc] using this

theorem lays_xpr (hp : Plain debugF64) (hd : ∀ n, decimal n ≠ [] ∧ ∀ c ∈ decimal n, isDigit c = true)
    (hF : ∀ f, F f → IsName f.name) (o : Oracle) {e : Xpr} (h : Legible F e.root) (hv : ∀ n ∈ o.ord e.vars, IsName n) :
    Lays (e.debug o) (e.pretty o) := by
  have hl := lays_list (o := c!"{") (c := c!"}") (by decide) (by decide)
    ((o.ord e.vars).map fun n => (quoted n, quoted n)) (by
      intro x hx
      obtain ⟨n, hn, rfl⟩ := List.mem_map.1 hx
      exact lays_quoted (hv n hn)) (by decide)
  have e1 : ((o.ord e.vars).map fun n => (quoted n, quoted n)).map (·.1) = (o.ord e.vars).map quoted := by
    rw [List.map_map]; rfl
  have e2 : ((o.ord e.vars).map fun n => (quoted n, quoted n)).map (·.2) = (o.ord e.vars).map quoted := by
    rw [List.map_map]; rfl
  rw [e1, e2] at hl
  have := lays_struct (n := b!"Xprs") (by decide) (by decide)
    [(b!"root", debugE e.root, prettyE e.root), (b!"vars", c!"{" :: (joinWith b!", " ((o.ord e.vars).map quoted) ++ [c!"}"]),
      prettyList c!"{" c!"}" ((o.ord e.vars).map quoted))] (by simp) (by
      intro x hx
      simp only [List.mem_cons, List.not_mem_nil, or_false] at hx
      rcases hx with rfl | rfl
      · exact ⟨by simp, by dsimp only; decide, lays_debug hp hd hF e.root h⟩
      · exact ⟨by simp, by dsimp only; decide, hl⟩)
  simpa [Xpr.debug, Xpr.pretty, joinWith, List.append_assoc] using this

/-! ### Telling apart -/

theorem newline_succ (d : Nat) : newline (d + 1) = newline d ++ b!"    " := by
  unfold newline
  rw [Nat.mul_add, ← List.replicate_append_replicate]
  rfl

theorem shift_field (d : Nat) {n : Bytes} (hn : c!"\n" ∉ n) (t : Bytes) : shift d (n ++ b!": " ++ t) = n ++ b!": " ++ shift d t := by
  rw [shift_append, shift_append, shift_plain d hn, shift_plain d (t := b!": ") (by decide)]

theorem shift_num (hp : Plain debugF64) (d : Nat) (v : F64) : shift d (prettyE (.num v)) =
    (b!"Number(" ++ newline (d + 1)) ++ (debugF64 v ++ (b!"," ++ newline d ++ b!")")) := by
  rw [prettyE, shift_tuple d (by decide), shift_plain _ (plain_no_nl (hp.plain v))]
  simp [List.append_assoc]

theorem shift_var (d : Nat) {n : Bytes} (h : IsName n) : shift d (prettyE (.var n)) =
    (b!"Variable(" ++ newline (d + 1)) ++ (quoted n ++ (b!"," ++ newline d ++ b!")")) := by
  rw [prettyE, shift_tuple d (by decide), shift_plain _ (plain_no_nl (plain_quoted h))]
  simp [List.append_assoc]

theorem op_no_nl (op : Op) : c!"\n" ∉ opDebug op := by cases op <;> decide
theorem fn_no_nl (p : FnPtr) : c!"\n" ∉ fnDebug p := by cases p <;> simp [fnDebug]

theorem shift_un (d : Nat) (op : Op) (e : Elem) : shift d (prettyE (.un op e)) =
    (b!"UnOp(" ++ newline (d + 1) ++ b!"UnOp {" ++ newline (d + 1 + 1) ++ b!"op: ") ++ (opDebug op ++
      (b!"," ++ newline (d + 1 + 1) ++ b!"operand: " ++ (shift (d + 1 + 1) (prettyE e) ++
      (b!"," ++ newline (d + 1) ++ b!"}," ++ newline d ++ b!")")))) := by
  rw [prettyE, shift_tuple d (by decide), shift_struct _ (by decide)]
  simp only [List.flatMap_cons, List.flatMap_nil]
  rw [shift_field _ (by decide), shift_field _ (by decide), shift_plain _ (op_no_nl op)]
  simp [List.append_assoc]

theorem shift_bin (d : Nat) (op : Op) (l r : Elem) : shift d (prettyE (.bin op l r)) =
    (b!"BinOp(" ++ newline (d + 1) ++ b!"BinOp {" ++ newline (d + 1 + 1) ++ b!"op: ") ++ (opDebug op ++
      (b!"," ++ newline (d + 1 + 1) ++ b!"lhs: " ++ (shift (d + 1 + 1) (prettyE l) ++
      (b!"," ++ newline (d + 1 + 1) ++ b!"rhs: " ++ (shift (d + 1 + 1) (prettyE r) ++
      (b!"," ++ newline (d + 1) ++ b!"}," ++ newline d ++ b!")")))))) := by
  rw [prettyE, shift_tuple d (by decide), shift_struct _ (by decide)]
  simp only [List.flatMap_cons, List.flatMap_nil]
  rw [shift_field _ (by decide), shift_field _ (by decide), shift_field _ (by decide), shift_plain _ (op_no_nl op)]
  simp [List.append_assoc]

theorem shift_call (d : Nat) (f : Func) (as : List Elem) : shift d (prettyE (.call f as)) =
    (b!"Function(" ++ newline (d + 1) ++ b!"FunctionCall {" ++ newline (d + 1 + 1) ++ b!"desc: ") ++
      (shift (d + 1 + 1) (prettyFunc f) ++ (b!"," ++ newline (d + 1 + 1) ++ b!"args: " ++
      (shift (d + 1 + 1) (prettyList c!"[" c!"]" (prettyL as)) ++
      (b!"," ++ newline (d + 1) ++ b!"}," ++ newline d ++ b!")")))) := by
  rw [prettyE, shift_tuple d (by decide), shift_struct _ (by decide)]
  simp only [List.flatMap_cons, List.flatMap_nil]
  rw [shift_field _ (by decide), shift_field _ (by decide)]
  simp [List.append_assoc]

theorem shift_func (d : Nat) {f : Func} (h : IsName f.name) : ∃ t, shift d (prettyFunc f) =
    (b!"Function {" ++ newline (d + 1) ++ b!"name: ") ++ (quoted f.name ++ t) := by
  unfold prettyFunc
  rw [shift_struct d (by decide)]
  simp only [List.flatMap_cons, List.flatMap_nil]
  rw [shift_field _ (by decide), shift_plain _ (plain_no_nl (plain_quoted h))]
  simp only [List.append_assoc]
  exact ⟨_, rfl⟩

theorem prettyFunc_eq (hF : ∀ f, F f → IsName f.name) (hn : ∀ f f', F f → F f' → f.name = f'.name → f = f')
    {f f' : Func} (h1 : F f) (h2 : F f') {d : Nat} {r r' : Bytes}
    (h : shift d (prettyFunc f) ++ r = shift d (prettyFunc f') ++ r') : f = f' ∧ r = r' := by
  have h3 := h
  obtain ⟨t, ht⟩ := shift_func d (hF f h1)
  obtain ⟨t', ht'⟩ := shift_func d (hF f' h2)
  rw [ht, ht'] at h3
  simp only [List.append_assoc] at h3
  obtain ⟨h4, -⟩ := quoted_eq (word_name (hF f h1)) (word_name (hF f' h2))
    (List.append_cancel_left (List.append_cancel_left (List.append_cancel_left h3)))
  obtain rfl := hn f f' h1 h2 h4
  exact ⟨rfl, List.append_cancel_left h⟩

theorem entries_eq {α : Type} {sh : α → Bytes} (d : Nat) {close : UInt8} (hc : close ≠ c!" ") : ∀ (as as' : List α),
    (∀ a ∈ as, ∀ a' ∈ as', ∀ r r', sh a ++ (c!"," :: r) = sh a' ++ (c!"," :: r') → a = a' ∧ r = r') → ∀ r r',
    (as.flatMap fun a => newline (d + 1) ++ sh a ++ b!",") ++ newline d ++ close :: r =
      (as'.flatMap fun a => newline (d + 1) ++ sh a ++ b!",") ++ newline d ++ close :: r' → as = as' ∧ r = r'
  | [], [], _, r, r', h => by
    simp only [List.flatMap_nil, List.nil_append] at h
    exact ⟨rfl, (List.cons.inj (List.append_cancel_left h)).2⟩
  | [], a :: as, _, r, r', h => by
    rw [List.flatMap_nil, List.nil_append, List.flatMap_cons, newline_succ] at h
    simp only [List.append_assoc] at h
    exact absurd (List.cons.inj (List.append_cancel_left h)).1 hc
  | a :: as, [], _, r, r', h => by
    rw [List.flatMap_nil, List.nil_append, List.flatMap_cons, newline_succ] at h
    simp only [List.append_assoc] at h
    exact absurd (List.cons.inj (List.append_cancel_left h)).1.symm hc
  | a :: as, a' :: as', ih, r, r', h => by
    simp only [List.flatMap_cons, List.append_assoc] at h
    obtain ⟨rfl, h1⟩ := ih a (by simp) a' (by simp) _ _ (List.append_cancel_left h)
    obtain ⟨h2, h3⟩ := entries_eq d hc as as'
      (fun x hx y hy => ih x (List.mem_cons_of_mem _ hx) y (List.mem_cons_of_mem _ hy)) r r' (by simpa [List.append_assoc] using h1)
    exact ⟨by rw [h2], h3⟩

theorem list_eq {α : Type} {sh : α → Bytes} (d : Nat) {o close : UInt8} (ho : o ≠ c!"\n") (hn : close ≠ c!"\n") (hc : close ≠ c!" ")
    (as as' : List α) (ih : ∀ a ∈ as, ∀ a' ∈ as', ∀ r r', shift (d + 1) (sh a) ++ (c!"," :: r) =
      shift (d + 1) (sh a') ++ (c!"," :: r') → a = a' ∧ r = r') (r r' : Bytes)
    (h : shift d (prettyList o close (as.map sh)) ++ r = shift d (prettyList o close (as'.map sh)) ++ r') : as = as' ∧ r = r' := by
  rw [shift_list d ho hn, shift_list d ho hn] at h
  have nl : ∀ (b : α) (bs : List α) (t : Bytes), ∃ t', (((b :: bs).map sh).flatMap fun e => newline (d + 1) ++ shift (d + 1) e ++ b!",") ++ t =
      c!"\n" :: t' := by
    intro b bs t
    rw [List.map_cons, List.flatMap_cons]
    exact ⟨_, rfl⟩
  cases as with
  | nil =>
    cases as' with
    | nil => simpa using h
    | cons b bs =>
      simp only [List.map_nil, if_pos, if_neg (show ¬ (b :: bs).map sh = [] by simp), List.cons_append, List.append_assoc, List.nil_append] at h
      obtain ⟨t', ht'⟩ := nl b bs (newline d ++ close :: r')
      simp only [List.append_assoc] at ht'
      rw [ht'] at h
      simp only [List.cons.injEq, true_and] at h
      exact absurd h.1 hn
  | cons a as =>
    cases as' with
    | nil =>
      simp only [List.map_nil, if_pos, if_neg (show ¬ (a :: as).map sh = [] by simp), List.cons_append, List.append_assoc, List.nil_append] at h
      obtain ⟨t', ht'⟩ := nl a as (newline d ++ close :: r)
      simp only [List.append_assoc] at ht'
      rw [ht'] at h
      simp only [List.cons.injEq, true_and] at h
      exact absurd h.1.symm hn
    | cons b bs =>
      rw [if_neg (by simp), if_neg (by simp), List.cons_append, List.cons_append] at h
      have h' := (List.cons.inj h).2
      rw [List.flatMap_map, List.flatMap_map] at h'
      simp only [List.append_assoc (_ ++ newline d)] at h'
      exact entries_eq (sh := fun a => shift (d + 1) (sh a)) d hc (a :: as) (b :: bs) ih r r' h'

/-- Trees printed with `{:#?}` at any depth can be told apart, whatever follows. -/
theorem pretty_eq (hc : Distinct debugF64) (hp : Plain debugF64) (hF : ∀ f, F f → IsName f.name)
    (hn : ∀ f f', F f → F f' → f.name = f'.name → f = f') (e : Elem) :
    ∀ d e' r r', Legible F e → Legible F e' → shift d (prettyE e) ++ r = shift d (prettyE e') ++ r' → e = e' ∧ r = r' := by
  have hd : ∀ (d : Nat) (e : Elem), Legible F e → ∃ t, shift d (prettyE e) = (match e with
      | .num _ => b!"N" | .var _ => b!"V" | .un .. => b!"U" | .bin .. => b!"B" | .call .. => b!"F") ++ t := by
    intro d e he
    cases e with
    | num v => exact ⟨_, by rw [shift_num hp]; rfl⟩
    | var n => exact ⟨_, by rw [shift_var d he.name]; rfl⟩
    | un op a => exact ⟨_, by rw [shift_un]; rfl⟩
    | bin op a b => exact ⟨_, by rw [shift_bin]; rfl⟩
    | call f as => exact ⟨_, by rw [shift_call]; rfl⟩
  have hdiff : ∀ (d : Nat) (e e' : Elem) (r r' : Bytes), Legible F e → Legible F e' →
      shift d (prettyE e) ++ r = shift d (prettyE e') ++ r' → (match e with
      | .num _ => c!"N" | .var _ => c!"V" | .un .. => c!"U" | .bin .. => c!"B" | .call .. => c!"F") = (match e' with
      | .num _ => c!"N" | .var _ => c!"V" | .un .. => c!"U" | .bin .. => c!"B" | .call .. => c!"F") := by
    intro d e e' r r' he he' h
    obtain ⟨t, ht⟩ := hd d e he
    obtain ⟨t', ht'⟩ := hd d e' he'
    rw [ht, ht'] at h
    cases e <;> cases e' <;> first | rfl | (simp at h)
  induction e using Elem.ind with
  | num v =>
    intro d e' r r' he he' h
    have hk := hdiff d _ _ _ _ he he' h
    cases e' with
    | num v' =>
      rw [shift_num hp, shift_num hp] at h
      simp only [List.append_assoc] at h
      have h' := List.append_cancel_left (List.append_cancel_left h)
      obtain ⟨h1, h2⟩ := word_eq (hc.word v) (hc.word v') (stops_cons (by decide)) (stops_cons (by decide)) h'
      replace h2 : newline d ++ _ = newline d ++ _ := (List.cons.inj h2).2
      exact ⟨by rw [hc.inj _ _ h1], List.append_cancel_left (List.append_cancel_left h2)⟩
    | _ => simp at hk
  | var n =>
    intro d e' r r' he he' h
    have hk := hdiff d _ _ _ _ he he' h
    cases e' with
    | var n' =>
      rw [shift_var d he.name, shift_var d he'.name] at h
      simp only [List.append_assoc] at h
      have h' := List.append_cancel_left (List.append_cancel_left h)
      obtain ⟨rfl, h2⟩ := quoted_eq (word_name he.name) (word_name he'.name) h'
      exact ⟨rfl, List.append_cancel_left (List.append_cancel_left (List.append_cancel_left h2))⟩
    | _ => simp at hk
  | un op a ih =>
    intro d e' r r' he he' h
    have hk := hdiff d _ _ _ _ he he' h
    cases e' with
    | un op' b =>
      rw [shift_un, shift_un] at h
      simp only [List.append_assoc] at h
      have h' := List.append_cancel_left (List.append_cancel_left (List.append_cancel_left (List.append_cancel_left (List.append_cancel_left h))))
      obtain ⟨h1, h2⟩ := word_eq (word_opDebug op) (word_opDebug op') (stops_cons (by decide)) (stops_cons (by decide)) h'
      replace h2 : newline (d + 1 + 1) ++ _ = newline (d + 1 + 1) ++ _ := (List.cons.inj h2).2
      have h3 := List.append_cancel_left (List.append_cancel_left h2)
      obtain ⟨rfl, h4⟩ := ih _ b _ _ he.un he'.un h3
      exact ⟨by rw [opDebug_inj h1], List.append_cancel_left (List.append_cancel_left (List.append_cancel_left (List.append_cancel_left (List.append_cancel_left h4))))⟩
    | _ => simp at hk
  | bin op x y ihl ihr =>
    intro d e' r r' he he' h
    have hk := hdiff d _ _ _ _ he he' h
    cases e' with
    | bin op' x' y' =>
      rw [shift_bin, shift_bin] at h
      simp only [List.append_assoc] at h
      have h' := List.append_cancel_left (List.append_cancel_left (List.append_cancel_left (List.append_cancel_left (List.append_cancel_left h))))
      obtain ⟨h1, h2⟩ := word_eq (word_opDebug op) (word_opDebug op') (stops_cons (by decide)) (stops_cons (by decide)) h'
      replace h2 : newline (d + 1 + 1) ++ _ = newline (d + 1 + 1) ++ _ := (List.cons.inj h2).2
      have h3 := List.append_cancel_left (List.append_cancel_left h2)
      obtain ⟨rfl, h4⟩ := ihl _ x' _ _ he.left he'.left h3
      have h5 := List.append_cancel_left (List.append_cancel_left (List.append_cancel_left h4))
      obtain ⟨rfl, h6⟩ := ihr _ y' _ _ he.right he'.right h5
      exact ⟨by rw [opDebug_inj h1], List.append_cancel_left (List.append_cancel_left (List.append_cancel_left (List.append_cancel_left (List.append_cancel_left h6))))⟩
    | _ => simp at hk
  | call f as ih =>
    intro d e' r r' he he' h
    have hk := hdiff d _ _ _ _ he he' h
    cases e' with
    | call f' as' =>
      rw [shift_call, shift_call] at h
      simp only [List.append_assoc] at h
      have h' := List.append_cancel_left (List.append_cancel_left (List.append_cancel_left (List.append_cancel_left (List.append_cancel_left h))))
      obtain ⟨rfl, h2⟩ := prettyFunc_eq hF hn he.fn.1 he'.fn.1 h'
      have h3 := List.append_cancel_left (List.append_cancel_left (List.append_cancel_left h2))
      rw [prettyL_map, prettyL_map] at h3
      obtain ⟨rfl, h4⟩ := list_eq _ (by decide) (by decide) (by decide) as as'
        (fun a ha a' ha' r r' h => by
          obtain ⟨h5, h6⟩ := ih a ha _ a' _ _ (he.arg ha) (he'.arg ha') h
          exact ⟨h5, (List.cons.inj h6).2⟩) _ _ h3
      exact ⟨rfl, List.append_cancel_left (List.append_cancel_left (List.append_cancel_left (List.append_cancel_left (List.append_cancel_left h4))))⟩
    | _ => simp at hk

end
end Xprs
