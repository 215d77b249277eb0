import Verif.Spec.Platform
import Verif.Lemmas.Mention
import Verif.Lemmas.Parse
import Verif.Lemmas.OnBoth
/-
The parser makes, on two platforms that do the same for a text, the same of it.
-/
namespace Xprs
open Spec

variable {w w' : World} {cfg : Cfg} {c : Context} {input : Bytes} {rec rec' : Nat → St → R Elem}

/-- What a parser returns on the rest of the text asks nothing else of the platform. -/
def Yields (w w' : World) (input : Bytes) (rec : Nat → St → R Elem) : Prop :=
  ∀ p s e s', Within input s → rec p s = .ok e s' → OnBoth w w' e

theorem Within.mem {s : St} (h : Within input s) {b : UInt8} (hb : s.rest.head? = some b) :
    b ∈ input := by
  obtain ⟨a, rfl, -⟩ := h
  exact List.mem_append_right _ (List.mem_of_mem_head? hb)

theorem parseArgs_alike (hk : Keeping rec) (hr : Yields w w' input rec) :
    ∀ (n : Nat) (args : List Elem) (s : St) (as : List Elem) (s' : St), Within input s →
      (∀ a ∈ args, OnBoth w w' a) → parseArgs cfg rec n args s = .ok as s' → ∀ a ∈ as, OnBoth w w' a
  | 0, _, _, _, _, _, _, h => by simp [parseArgs] at h
  | n + 1, args, s, as, s', hs, ha, h => by
    rw [parseArgs] at h
    obtain ⟨arg, s1, h1, h2⟩ := R.bind_eq_ok h
    have h0 := argument_ok h1
    have l1 := (hk _ _ _ _ h0).trans (whole_trim s1)
    have ha' : ∀ a ∈ args ++ [arg], OnBoth w w' a := by
      intro a hm
      rcases List.mem_append.1 hm with hm | hm
      · exact ha a hm
      · rw [List.mem_singleton.1 hm]; exact hr _ _ _ _ hs h0
    simp only at h2
    split at h2
    · rename_i b hb
      split at h2
      · rename_i he
        exact parseArgs_alike hk hr n _ _ _ _
          (hs.step (l1.trans (whole_one hb (by rw [he]; decide +kernel)))) ha' h2
      · split at h2
        · simp at h2; rw [← h2.1]; exact ha'
        · simp [errTok] at h2
    · exact absurd h2 errEnd_ne_ok

theorem parseIdent_alike (hk : Keeping rec) (hr : Yields w w' input rec)
    (ha : AlikeFor w w' c input) {s : St} {b : UInt8} (hb : s.rest.head? = some b)
    (hi : isIdStart b = true) (hs : Within input s) {e : Elem} {s' : St}
    (h : parseIdent cfg c rec s = .ok e s') : OnBoth w w' e := by
  have l1 := whole_name s
  have hm : Mentions input (s.rest.takeWhile isIdChar) := by
    obtain ⟨a, hs, hs'⟩ := hs
    have hn := name_of_takeWhile hb hi
    rw [skipWhile_rest] at hn
    refine ⟨a, s.rest.dropWhile isIdChar, ?_, hn, ?_⟩
    · rw [List.takeWhile_append_dropWhile, hs]
    · rcases hs' with h | h
      · exact absurd ((isIdStart_iff b).1 hi) (h b hb)
      · exact h
  unfold parseIdent at h
  simp only at h
  split at h
  · simp at h; rw [← h.1]; exact .num _
  · simp at h; rw [← h.1]; exact .var _
  · rename_i f hf
    split at h
    · obtain ⟨as, s3, h3, h4⟩ := R.bind_eq_ok h
      obtain ⟨u, s4, h5, h6⟩ := R.bind_eq_ok h4
      rw [(checkArity_ok h6).1]
      exact .call (ha.fns _ f hm hf) (parseArgs_alike hk hr _ _ _ _ _
        (hs.step (l1.trans (whole_consumeIf (by decide +kernel) _))) (by simp) h3)
    · simp [errExpected] at h

theorem atom_alike (hk : Keeping rec) (hr : Yields w w' input rec)
    (ha : AlikeFor w w' c input) {s : St} (hs : Within input s) {e : Elem} {s' : St}
    (h : atom cfg c rec s = .ok e s') : OnBoth w w' e := by
  have hs' := hs.step (whole_trim s)
  unfold atom at h
  simp only at h
  split at h
  · exact absurd h errEnd_ne_ok
  · rename_i b hb
    split at h
    · obtain ⟨-, x, rfl, -⟩ := parseNumber_ok h; exact .num x
    · split at h
      · rename_i hi
        exact parseIdent_alike hk hr ha hb hi hs' h
      · have l1 : ¬ wordChar b → Within input (adv (trim s) 1) :=
          fun h => hs'.step (whole_one hb h)
        split at h
        · rename_i he
          obtain ⟨a, s1, h1, h2⟩ := R.bind_eq_ok h
          simp at h2; rw [← h2.1]
          exact .un (hr _ _ _ _ (l1 (by rw [he]; decide +kernel)) h1)
        · split at h
          · rename_i he
            obtain ⟨a, s1, h1, h2⟩ := R.bind_eq_ok h
            simp at h2; rw [← h2.1]
            exact .un (hr _ _ _ _ (l1 (by rw [he]; decide +kernel)) h1)
          · split at h
            · rename_i he
              obtain ⟨a, s1, h1, h2⟩ := R.bind_eq_ok h
              obtain ⟨u, s2, h3, h4⟩ := R.bind_eq_ok h2
              simp at h4; rw [← h4.1]
              exact hr _ _ _ _ (l1 (by rw [he]; decide +kernel)) h1
            · split at h <;> simp [errTok, errIllegal] at h

theorem opOfByte_power : ∀ b, opOfByte b = some .power → b = c!"^" :=
  forall_byte (by decide +kernel)

theorem opInfo_power {el : Elem} {p : Nat} {s : St} {q k : Nat}
    (h : opInfo cfg el p s = some (.power, q, k)) : s.rest.head? = some c!"^" := by
  unfold opInfo at h
  split at h
  · simp at h
  · rename_i b hb
    split at h
    · rename_i o ho
      split at h
      · simp at h
      · simp at h
        rw [hb, opOfByte_power b (by rw [ho, h.1])]
    · split at h
      · simp at h
      · split at h
        · simp at h
        · split at h <;> simp at h

theorem opLoop_alike (hk : Keeping rec) (hr : Yields w w' input rec)
    (ha : AlikeFor w w' c input) (p : Nat) :
    ∀ (n : Nat) (el : Elem) (s : St) (e : Elem) (s' : St), Within input s → OnBoth w w' el →
      opLoop cfg rec p n el s = .ok e s' → OnBoth w w' e
  | 0, _, _, _, _, _, _, h => by simp [opLoop] at h
  | n + 1, el, s, e, s', hs, hel, h => by
    rw [opLoop] at h
    have hs1 := hs.step (whole_trim s)
    split at h
    · simp at h; rw [← h.1]; exact hel
    · rename_i op q k hi
      obtain ⟨rhs, s2, h1, h2⟩ := R.bind_eq_ok h
      have hs2 := hs1.step (opInfo_whole hi)
      refine opLoop_alike hk hr ha p n _ _ _ _ (hs2.step (hk _ _ _ _ h1)) (.bin ?_ hel ?_) h2
      · rintro rfl
        exact ha.pow (hs1.mem (opInfo_power hi))
      · exact hr _ _ _ _ hs2 h1

theorem finish_alike {el : Elem} (h : OnBoth w w' el) (s : St) :
    finish cfg w el s = finish cfg w' el s ∧
    ∀ e s', finish cfg w el s = .ok e s' → OnBoth w w' e := by
  obtain ⟨h1, h2⟩ := simplify_both (cfg := cfg) el h
  unfold finish
  rw [← h1]
  refine ⟨rfl, fun e s' h' => ?_⟩
  split at h'
  · split at h'
    · rename_i e0 he
      simp at h'; rw [← h'.1]; exact h2 _ he
    · simp at h'
  · simp at h'; rw [← h'.1]; exact h

theorem element_alike (ha : AlikeFor w w' c input) : ∀ n,
    AgreeOn input (element cfg w c n) (element cfg w' c n) ∧
    Yields w w' input (element cfg w c n)
  | 0 => ⟨fun _ _ _ => rfl, fun p s e s' _ h => by simp [element] at h⟩
  | n + 1 => by
    obtain ⟨h1, h2⟩ := element_alike ha n
    have hk := element_whole cfg w c n
    have key : ∀ p s a s1 el s2, Within input s → atom cfg c (element cfg w c n) s = .ok a s1 →
        opLoop cfg (element cfg w c n) p ((consumeIf c!"!" s1).2.rest.length + 1)
          (if (consumeIf c!"!" s1).1 then .un .factorial a else a) (consumeIf c!"!" s1).2 = .ok el s2 →
        OnBoth w w' el := by
      intro p s a s1 el s2 hs h3 h4
      have h5 := atom_alike hk h2 ha hs h3
      refine opLoop_alike hk h2 ha p _ _ _ _ _
        (hs.step ((atom_whole hk h3).trans (whole_consumeIf (by decide +kernel) _))) ?_ h4
      split
      · exact .un h5
      · exact h5
    constructor
    · intro p s hs
      show elementF cfg w c _ p s = elementF cfg w' c _ p s
      unfold elementF
      apply R.bind_congr (atom_agree hk h1 (fun _ _ => rfl) hs)
      intro a s1 h3
      simp only
      apply R.bind_congr (opLoop_agree hk h1 _ _ _ _
        (hs.step ((atom_whole hk h3).trans (whole_consumeIf (by decide +kernel) _))))
      intro el s2 h4
      exact (finish_alike (key p s a s1 el s2 hs h3 h4) s2).1
    · intro p s e s' hs h
      obtain ⟨a, s1, el, h3, h4, h5⟩ := elementF_ok h
      exact (finish_alike (key p s a s1 el s' hs h3 h4) s').2 _ _ h5

theorem parseImpl_alike (ha : AlikeFor w w' c input) :
    parseImpl cfg w c input = parseImpl cfg w' c input ∧
    ∀ x, parseImpl cfg w c input = .ok x → OnBoth w w' x.root := by
  obtain ⟨h1, h2⟩ := element_alike (cfg := cfg) ha (input.length + 1)
  have hs : Within input ⟨0, input⟩ := ⟨[], rfl, .inr (by simp)⟩
  have h3 := h1 noPrec ⟨0, input⟩ hs
  constructor
  · unfold parseImpl; rw [h3]
  · intro x h
    unfold parseImpl at h
    split at h
    · rename_i e s he
      split at h
      · simp at h
      · simp at h; rw [← h]; exact h2 _ _ _ _ hs he
    all_goals simp at h

theorem parse_alike (ha : AlikeFor w w' c input) (o : Oracle) :
    parse cfg w o c input = parse cfg w' o c input ∧
    ∀ x, parse cfg w o c input = .ok x → OnBoth w w' x.root := by
  obtain ⟨h1, h2⟩ := parseImpl_alike (cfg := cfg) ha
  constructor
  · unfold parse; rw [h1]
  · intro x h
    exact h2 x (parse_ok h)

theorem AlikeFor.symm (ha : AlikeFor w w' c input) : AlikeFor w' w c input :=
  ⟨fun h a b => (ha.pow h a b).symm, fun nm f h1 h2 vs => (ha.fns nm f h1 h2 vs).symm⟩

end Xprs
