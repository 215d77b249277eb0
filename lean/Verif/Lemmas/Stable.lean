import Verif.Lemmas.Normal
/-
A simplification pass leaves a tree unchanged or makes it strictly smaller.
-/
namespace Xprs
open Spec

theorem BinShape.less {op : Op} {l r e : Elem} (h : BinShape op l r e) :
    e = .bin op l r ∨ Spec.size e < Spec.size l + Spec.size r + 1 := by
  have pos : ∀ e : Elem, 0 < Spec.size e := by intro e; cases e <;> simp [Spec.size]
  have := pos l; have := pos r
  cases h with
  | plus b _ hb => subst hb; right; simp [Spec.size]
  | both a b ha hb => subst ha hb; right; simp [Spec.size]; omega
  | same => exact .inl rfl
  | left => right; omega
  | right => right; omega
  | num x => right; simp only [Spec.size]; omega
  | neg _ => right; simp only [Spec.size]; omega

theorem UnShape.less {op : Op} {a e : Elem} (h : UnShape op a e) :
    e = .un op a ∨ Spec.size e < Spec.size a + 1 := by
  have pos : ∀ e : Elem, 0 < Spec.size e := by intro e; cases e <;> simp [Spec.size]
  have := pos a
  cases h with
  | same _ => exact .inl rfl
  | operand => right; omega
  | num x => right; simp [Spec.size]; omega

theorem sizeL_pos {es : List Elem} (h : es ≠ []) : 0 < sizeL es := by
  cases es with
  | nil => exact absurd rfl h
  | cons a as => cases a <;> simp [sizeL, Spec.size] <;> omega

theorem simpCall_less {w : World} {f : Func} {args : List Elem} {e : Elem}
    (h : simpCall w f args = .ok e) (hne : args ≠ []) :
    e = .call f args ∨ size e < sizeL args + 1 := by
  rcases simpCall_shape h with h | ⟨x, rfl⟩
  · exact .inl h
  · right
    have := sizeL_pos hne
    simp only [Spec.size]; omega

mutual
/-- One pass of `simplify`. -/
theorem simplify_less {cfg : Cfg} {w : World} : ∀ (e : Elem) {e' : Elem},
    (∀ f, ¬ Sub (.call f []) e) → simplify cfg w e = .ok e' → e' = e ∨ size e' < size e
  | .num x, e', _, h => by rw [simplify] at h; cases h; exact .inl rfl
  | .var x, e', _, h => by rw [simplify] at h; cases h; exact .inl rfl
  | .bin op l r, e', hn, h => by
    obtain ⟨l', r', hl, hr, hb⟩ := simplify_bin_ok h
    have h1 := simplify_less l (fun f hs => hn f (.left hs)) hl
    have h2 := simplify_less r (fun f hs => hn f (.right hs)) hr
    have h3 := (simpBin_shape hb).less
    have h4 := (simpBin_shape hb).size
    simp only [size]
    rcases h1 with rfl | h1
    · rcases h2 with rfl | h2
      · exact h3
      · right; omega
    · right
      have := simplify_size r hr
      omega
  | .un op a, e', hn, h => by
    obtain ⟨a', ha, hb⟩ := simplify_un_ok h
    have h3 := (simpUn_shape hb).less
    have h4 := (simpUn_shape hb).size
    simp only [size]
    rcases simplify_less a (fun f hs => hn f (.operand hs)) ha with rfl | h1
    · exact h3
    · right; omega
  | .call f args, e', hn, h => by
    obtain ⟨args', ha, hb⟩ := simplify_call_ok h
    have hne : args ≠ [] := by rintro rfl; exact hn f .refl
    have hne' : args' ≠ [] := by
      intro h0
      have := simplifyL_length args ha
      rw [h0] at this
      exact hne (List.length_eq_zero_iff.1 this.symm)
    have h3 := simpCall_less hb hne'
    simp only [size]
    rcases simplifyL_less args (fun f a hm hs => hn f (.arg hm hs)) ha with rfl | h1
    · exact h3
    · right
      rcases h3 with rfl | h3
      · simp only [size]; omega
      · omega
theorem simplifyL_less {cfg : Cfg} {w : World} : ∀ (es : List Elem) {es' : List Elem},
    (∀ f, ∀ a ∈ es, ¬ Sub (.call f []) a) → simplifyL cfg w es = .ok es' →
      es' = es ∨ sizeL es' < sizeL es
  | [], es', _, h => by rw [simplifyL] at h; cases h; exact .inl rfl
  | a :: as, es', hn, h => by
    obtain ⟨a', as', ha, has, rfl⟩ := simplifyL_cons_ok h
    have s1 := simplify_size a ha
    have s2 := simplifyL_size as has
    simp only [sizeL]
    rcases simplify_less a (fun f => hn f a (by simp)) ha with rfl | h1
    · rcases simplifyL_less as (fun f b hb => hn f b (by simp [hb])) has with rfl | h2
      · exact .inl rfl
      · right; omega
    · right; omega
end

/-- No call without arguments: kept by `simplify`. -/
theorem noEmpty_of_calls {P : Func → Prop} {e : Elem} (h : Calls P e) (f : Func) :
    ¬ Sub (.call f []) e := fun hs => Nat.lt_irrefl 0 (h f [] hs).2.1

mutual
/-- `simplify_for` of a name that does not occur: unchanged or smaller, and unchanged
only if `simplify` has nothing to do. -/
theorem simplifyFor_less {cfg : Cfg} {w : World} {x : Bytes} {v : F64} {P : Func → Prop} :
    ∀ (e : Elem) {e' : Elem}, Calls P e → ¬ Occurs x e → simplifyFor cfg w x v e = .ok e' →
      (e' = e ∧ simplify cfg w e = .ok e) ∨ size e' < size e
  | .num y, e', _, _, h => by
    rw [simplifyFor] at h; cases h; exact .inl ⟨rfl, by rw [simplify]⟩
  | .var y, e', _, ho, h => by
    rw [simplifyFor, if_neg (by rintro rfl; exact ho .here)] at h
    cases h; exact .inl ⟨rfl, by rw [simplify]⟩
  | .bin op l r, e', hc, ho, h => by
    obtain ⟨l', r', hl, hr, hb⟩ := simplifyFor_bin_ok h
    have s1 := simplifyFor_size l hl
    have s2 := simplifyFor_size r hr
    have s3 := simplify_size _ hb
    have cl : Calls P l := fun f as hs => hc f as (.left hs)
    have cr : Calls P r := fun f as hs => hc f as (.right hs)
    simp only [size] at s3 ⊢
    rcases simplifyFor_less l cl (fun h => ho (.left h)) hl with ⟨rfl, _⟩ | h1
    · rcases simplifyFor_less r cr (fun h => ho (.right h)) hr with ⟨rfl, _⟩ | h2
      · rcases simplify_less _ (noEmpty_of_calls hc) hb with rfl | h3
        · exact .inl ⟨rfl, hb⟩
        · right; simpa only [size] using h3
      · right; omega
    · right; omega
  | .un op a, e', hc, ho, h => by
    obtain ⟨a', ha, hb⟩ := simplifyFor_un_ok h
    have s3 := simplify_size _ hb
    have ca : Calls P a := fun f as hs => hc f as (.operand hs)
    simp only [size] at s3 ⊢
    rcases simplifyFor_less a ca (fun h => ho (.operand h)) ha with ⟨rfl, _⟩ | h1
    · rcases simplify_less _ (noEmpty_of_calls hc) hb with rfl | h3
      · exact .inl ⟨rfl, hb⟩
      · right; simpa only [size] using h3
    · right; omega
  | .call f args, e', hc, ho, h => by
    obtain ⟨args', ha, hb⟩ := simplifyFor_call_ok h
    have s3 := simplify_size _ hb
    simp only [size] at s3 ⊢
    rcases simplifyForL_less args (fun a hm f as hs => hc f as (.arg hm hs))
      (fun a hm h => ho (.arg hm h)) ha with rfl | h1
    · rcases simplify_less _ (noEmpty_of_calls hc) hb with rfl | h3
      · exact .inl ⟨rfl, hb⟩
      · right; simpa only [size] using h3
    · right; omega
theorem simplifyForL_less {cfg : Cfg} {w : World} {x : Bytes} {v : F64} {P : Func → Prop} :
    ∀ (es : List Elem) {es' : List Elem}, (∀ a ∈ es, Calls P a) → (∀ a ∈ es, ¬ Occurs x a) →
      simplifyForL cfg w x v es = .ok es' → es' = es ∨ sizeL es' < sizeL es
  | [], es', _, _, h => by rw [simplifyForL] at h; cases h; exact .inl rfl
  | a :: as, es', hc, ho, h => by
    obtain ⟨a', as', ha, has, rfl⟩ := simplifyForL_cons_ok h
    have s1 := simplifyFor_size a ha
    have s2 := simplifyForL_size as has
    simp only [sizeL]
    rcases simplifyFor_less a (hc a (by simp)) (ho a (by simp)) ha with ⟨rfl, _⟩ | h1
    · rcases simplifyForL_less as (fun b hb => hc b (by simp [hb]))
        (fun b hb => ho b (by simp [hb])) has with rfl | h2
      · exact .inl rfl
      · right; omega
    · right; omega
end

end Xprs
