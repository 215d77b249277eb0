import Verif.Lemmas.Parse
/-
How large a tree a text of a given length can denote.
-/
namespace Xprs
open Spec

theorem height_pos (e : Elem) : 0 < height e := by cases e <;> simp [height]

theorem BinShape.height_le {op : Op} {l r e : Elem} (h : BinShape op l r e) :
    height e ≤ max (height l) (height r) + 1 := by
  have := height_pos l; have := height_pos r
  cases h with
  | plus b _ hb => subst hb; simp only [height] at *; omega
  | both a b ha hb => subst ha hb; simp only [height] at *; omega
  | left => omega
  | right => omega
  | num x => simp only [height]; omega
  | neg _ => simp only [height]; omega
  | same => simp only [height]; omega

theorem UnShape.height_le {op : Op} {a e : Elem} (h : UnShape op a e) :
    height e ≤ height a + 1 := by
  cases h with
  | same _ => simp only [height]; omega
  | operand => omega
  | num x => simp only [height]; omega

mutual
theorem simplify_height {cfg : Cfg} {w : World} : ∀ (e : Elem) {e' : Elem},
    simplify cfg w e = .ok e' → height e' ≤ height e
  | .num x, e', h => by rw [simplify] at h; cases h; exact Nat.le_refl _
  | .var x, e', h => by rw [simplify] at h; cases h; exact Nat.le_refl _
  | .bin op l r, e', h => by
    obtain ⟨l', r', hl, hr, hb⟩ := simplify_bin_ok h
    have h1 := simplify_height l hl
    have h2 := simplify_height r hr
    have h3 := (simpBin_shape hb).height_le
    simp only [height]; omega
  | .un op a, e', h => by
    obtain ⟨a', ha, hb⟩ := simplify_un_ok h
    have h1 := simplify_height a ha
    have h3 := (simpUn_shape hb).height_le
    simp only [height]; omega
  | .call f args, e', h => by
    obtain ⟨args', ha, hb⟩ := simplify_call_ok h
    have h1 := simplifyL_height args ha
    rcases simpCall_shape hb with rfl | ⟨x, rfl⟩ <;> simp only [height] <;> omega
theorem simplifyL_height {cfg : Cfg} {w : World} : ∀ (es : List Elem) {es' : List Elem},
    simplifyL cfg w es = .ok es' → heightL es' ≤ heightL es
  | [], es', h => by rw [simplifyL] at h; cases h; exact Nat.le_refl _
  | a :: as, es', h => by
    obtain ⟨a', as', ha, has, rfl⟩ := simplifyL_cons_ok h
    have h1 := simplify_height a ha
    have h2 := simplifyL_height as has
    simp only [heightL]; omega
end

mutual
theorem simplifyFor_height {cfg : Cfg} {w : World} {x : Bytes} {v : F64} :
    ∀ (e : Elem) {e' : Elem}, simplifyFor cfg w x v e = .ok e' → height e' ≤ height e
  | .num y, e', h => by rw [simplifyFor] at h; cases h; exact Nat.le_refl _
  | .var y, e', h => by
    rw [simplifyFor] at h
    split at h <;> cases h <;> simp [height]
  | .bin op l r, e', h => by
    obtain ⟨l', r', hl, hr, hb⟩ := simplifyFor_bin_ok h
    have h1 := simplifyFor_height l hl
    have h2 := simplifyFor_height r hr
    have h3 := simplify_height _ hb
    simp only [height] at *; omega
  | .un op a, e', h => by
    obtain ⟨a', ha, hb⟩ := simplifyFor_un_ok h
    have h1 := simplifyFor_height a ha
    have h3 := simplify_height _ hb
    simp only [height] at *; omega
  | .call f args, e', h => by
    obtain ⟨args', ha, hb⟩ := simplifyFor_call_ok h
    have h1 := simplifyForL_height args ha
    have h3 := simplify_height _ hb
    simp only [height] at *; omega
theorem simplifyForL_height {cfg : Cfg} {w : World} {x : Bytes} {v : F64} :
    ∀ (es : List Elem) {es' : List Elem},
    simplifyForL cfg w x v es = .ok es' → heightL es' ≤ heightL es
  | [], es', h => by rw [simplifyForL] at h; cases h; exact Nat.le_refl _
  | a :: as, es', h => by
    obtain ⟨a', as', ha, has, rfl⟩ := simplifyForL_cons_ok h
    have h1 := simplifyFor_height a ha
    have h2 := simplifyForL_height as has
    simp only [heightL]; omega
end

/-- Fits into a text of length `n`. -/
def Fits (n : Nat) (e : Elem) : Prop := size e + 1 ≤ 2 * n ∧ height e ≤ n

theorem keeps_fits (cfg : Cfg) (w : World) (n : Nat) : Keeps (finOf cfg w) (Fits n) := by
  intro e e' h hq
  unfold finOf at h
  split at h
  · have h1 := simplify_size e h
    have h2 := simplify_height e h
    unfold Fits at *; omega
  · cases h; exact hq

section
variable {cfg : Cfg} {fin : Elem → PM Elem} {ctx : Context}

mutual
theorem den_fits (hfin : ∀ n, Keeps fin (Fits n)) : ∀ (x : Cst) (rest : Bytes) {e : Elem},
    x.wf cfg fin ctx rest → x.den fin ctx = .ok e → Fits x.text.length e
  | .num ws txt v, rest, e, hw, hd => by
    have h0 := List.length_pos_iff.2 (text_ne_nil _ _ hw)
    rw [Cst.den] at hd; cases hd
    unfold Fits; simp only [size, height]; omega
  | .name ws nm, rest, e, hw, hd => by
    have h0 := List.length_pos_iff.2 (text_ne_nil _ _ hw)
    rcases den_name hd with ⟨x, _, rfl⟩ | ⟨_, rfl⟩ <;>
      (unfold Fits; simp only [size, height]; omega)
  | .call ws nm ws2 as, rest, e, hw, hd => by
    obtain ⟨_, _, _, ⟨f, hf, _⟩, hwa⟩ := hw
    obtain ⟨es, hes, rfl⟩ := den_call hf hd
    have := denL_fits hfin as rest hwa hes
    unfold Fits
    simp only [size, height, Cst.text, List.length_append, List.length_cons, List.length_nil]
    omega
  | .paren ws x ws2, rest, e, hw, hd => by
    obtain ⟨a, ha, hfa⟩ := den_paren hd
    have := hfin _ _ _ hfa (den_fits hfin x _ hw.2.2 ha)
    unfold Fits at *
    simp only [Cst.text, List.length_append, List.length_cons, List.length_nil]
    omega
  | .sign ws neg x, rest, e, hw, hd => by
    obtain ⟨a, a', ha, hfa, rfl⟩ := den_sign hd
    have := hfin _ _ _ hfa (den_fits hfin x _ hw.2.1 ha)
    unfold Fits at *
    simp only [size, height, Cst.text, List.length_append, List.length_cons]
    omega
  | .fact x ws, rest, e, hw, hd => by
    obtain ⟨a, ha, rfl⟩ := den_fact hd
    have := den_fits hfin x _ hw.2.2 ha
    unfold Fits at *
    simp only [size, height, Cst.text, List.length_append, List.length_cons, List.length_nil]
    omega
  | .bin l ws op r, rest, e, hw, hd => by
    obtain ⟨a, b, b', ha, hb, hfb, rfl⟩ := den_bin hd
    have h1 := den_fits hfin l _ hw.2.1 ha
    have h2 := hfin _ _ _ hfb (den_fits hfin r _ hw.2.2.2.1 hb)
    unfold Fits at *
    simp only [size, height, Cst.text, List.length_append, List.length_cons]
    omega
  | .juxt l r, rest, e, hw, hd => by
    obtain ⟨a, b, b', ha, hb, hfb, rfl⟩ := den_juxt hd
    have h1 := den_fits hfin l _ hw.1 ha
    have h2 := hfin _ _ _ hfb (den_fits hfin r _ hw.2.2.1 hb)
    unfold Fits at *
    simp only [size, height, Cst.text, List.length_append]
    omega
theorem denL_fits (hfin : ∀ n, Keeps fin (Fits n)) : ∀ (as : CArgs) (rest : Bytes)
    {es : List Elem}, as.wf cfg fin ctx rest → as.den fin ctx = .ok es →
    sizeL es + 1 ≤ 2 * as.text.length ∧ heightL es ≤ as.text.length
  | .last x ws, rest, es, hw, hd => by
    obtain ⟨a, a', ha, hfa, rfl⟩ := den_last hd
    have := hfin _ _ _ hfa (den_fits hfin x _ hw.2 ha)
    unfold Fits at *
    simp only [sizeL, heightL, CArgs.text, List.length_append]
    omega
  | .more x ws as, rest, es, hw, hd => by
    obtain ⟨a, a', es', ha, hfa, hes, rfl⟩ := den_more hd
    have h1 := hfin _ _ _ hfa (den_fits hfin x _ hw.2.1 ha)
    have h2 := denL_fits hfin as _ hw.2.2 hes
    unfold Fits at *
    simp only [sizeL, heightL, CArgs.text, List.length_append, List.length_cons]
    omega
end
end

theorem parseImpl_fits {cfg : Cfg} {w : World} {ctx : Context} {input : Bytes} {x : Xpr}
    (h : parseImpl cfg w ctx input = .ok x) : Fits input.length x.root := by
  obtain ⟨c, tw, e, h1, _, h3, h4, h5, _⟩ := parseImpl_den h
  have := keeps_fits cfg w _ _ _ h5 (den_fits (keeps_fits cfg w) c tw h3 h4)
  unfold Fits at *
  rw [h1, List.length_append]; omega

theorem reach_fits {cfg : Cfg} {w : World} {ctx : Context} {input : Bytes} {y : Xpr}
    (h : Reach cfg w ctx input y) : Fits input.length y.root :=
  reach_ind (Q := fun e _ => Fits input.length e) (fun _ h => parseImpl_fits h)
    (fun e _ _ _ _ hq h => by
      have h1 := simplifyFor_size e h
      have h2 := simplifyFor_height e h
      unfold Fits at *; omega) h

end Xprs
