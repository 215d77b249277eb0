import Verif.Lemmas.Written
/-
Replacing implicit by explicit multiplication in a written-out tree.
-/
namespace Xprs
open Spec

theorem explArgs_refl : ∀ as : CArgs, ExplArgs as as
  | .last _ _ => .last .refl
  | .more _ _ as => .more .refl (explArgs_refl as)

/-- Two texts that begin alike, at least over the first token; where they begin to
differ the second goes on with whitespace or `*`. -/
def Like (a b : Bytes) : Prop :=
  a = b ∨ ∃ p a' c b', a = p ++ a' ∧ b = p ++ c :: b' ∧ (space c ∨ c = c!"*") ∧
    ∃ d, firstTok p = some d

theorem Like.append {a b c d : Bytes} (h : Like a b) (h' : Like c d) : Like (a ++ c) (b ++ d) := by
  rcases h with rfl | ⟨p, a', x, b', rfl, rfl, hx, hp⟩
  · rcases h' with rfl | ⟨p, a', x, b', rfl, rfl, hx, d', hp⟩
    · exact .inl rfl
    · refine .inr ⟨a ++ p, a', x, b', by simp, by simp, hx, ?_⟩
      cases ha : firstTok a with
      | none =>
        rw [firstTok_spaces (firstTok_none ha)]
        exact ⟨d', hp⟩
      | some e => exact ⟨e, firstTok_append ha⟩
  · exact .inr ⟨p, a' ++ c, x, b' ++ d, by simp, by simp, hx, hp⟩

theorem Like.firstTok {a b : Bytes} {c : UInt8} (h : Like a b) (ha : firstTok a = some c) :
    firstTok b = some c := by
  rcases h with rfl | ⟨p, a', x, b', rfl, rfl, hx, d, hp⟩
  · exact ha
  · rw [firstTok_append hp] at ha ⊢; exact ha

theorem Like.notHead {p : UInt8 → Prop} {a b : Bytes} (h : Like a b) (ha : notHead p a) : notHead p b := by
  rcases h with rfl | ⟨q, a', x, b', rfl, rfl, hx, d, hp⟩
  · exact ha
  · cases q with
    | nil => cases hp
    | cons e q => exact ha

theorem Like.notExp {a b : Bytes} (h : Like a b) (ha : notExp a) : notExp b := by
  rcases h with rfl | ⟨q, a', x, b', rfl, rfl, hx, d, hp⟩
  · exact ha
  · match q, hp with
    | [], hp => cases hp
    | [e], hp =>
      intro c t ht _
      simp only [List.cons_append, List.nil_append, List.cons.injEq] at ht
      obtain ⟨rfl, rfl⟩ := ht
      refine ⟨x, b', rfl, ?_⟩
      rcases hx with hx | rfl
      · exact (forall_byte (P := fun x => space x → ¬ digit x ∧ x ≠ c!"+" ∧ x ≠ c!"-")
          (by decide +kernel)) x hx
      · decide
    | e :: f :: q, hp =>
      intro c t ht hc
      simp only [List.cons_append, List.cons.injEq] at ht
      obtain ⟨rfl, rfl⟩ := ht
      obtain ⟨d, t'', h1, h2⟩ := ha e (f :: (q ++ a')) rfl hc
      cases h1
      exact ⟨f, q ++ x :: b', rfl, h2⟩

theorem written_tok {cfg : Cfg} {ctx : Context} {x : Cst} (hg : x.good cfg ctx) :
    ∃ c, firstTok x.text = some c :=
  text_tok (cfg := cfg) (fin := .ok) (ctx := ctx) x [] (good_wf.1 x [] hg (follow_end (by intro c hc; cases hc)))

theorem like_wrap {a b p q : Bytes} (h : Like a b) : Like (p ++ a ++ q) (p ++ b ++ q) :=
  ((show Like p p from .inl rfl).append h).append (.inl rfl)

/-- Under PEMDAS the result of such a replacement is legal again. -/
theorem expl_good {cfg : Cfg} {ctx : Context} (hp : cfg.pejmdas = false) :
    (∀ (x : Cst), ∀ y, Expl x y → x.good cfg ctx → y.good cfg ctx ∧ y.top cfg = x.top cfg ∧
      y.edge cfg = x.edge cfg ∧ y.endsName = x.endsName ∧ y.endsNum = x.endsNum ∧
      (x.primary → y.primary) ∧ Like x.text y.text) ∧
    (∀ (as : CArgs), ∀ bs, ExplArgs as bs → as.good cfg ctx → bs.good cfg ctx ∧ bs.count = as.count ∧
      Like as.text bs.text) := by
  have hi : implLevel cfg = level .times := by simp [implLevel, hp, level]
  refine cst_ind ?_ ?_ ?_ ?_ ?_ ?_ ?_ ?_ ?_ ?_
  · intro ws txt v y h hg
    cases h; exact ⟨hg, rfl, rfl, rfl, rfl, id, .inl rfl⟩
  · intro ws nm y h hg
    cases h; exact ⟨hg, rfl, rfl, rfl, rfl, id, .inl rfl⟩
  · intro ws nm ws2 as ih y h hg
    cases h with
    | refl => exact ⟨hg, rfl, rfl, rfl, rfl, id, .inl rfl⟩
    | call h =>
      obtain ⟨h1, h2, h3⟩ := ih _ h hg.2.2.2.2
      refine ⟨⟨hg.1, hg.2.1, hg.2.2.1, by rw [h2]; exact hg.2.2.2.1, h1⟩, rfl, rfl, rfl, rfl, id, ?_⟩
      have := like_wrap (p := ws ++ nm ++ ws2 ++ [c!"("]) (q := [c!")"]) h3
      simpa [Cst.text] using this
  · intro ws x ws2 ih y h hg
    cases h with
    | refl => exact ⟨hg, rfl, rfl, rfl, rfl, id, .inl rfl⟩
    | paren h =>
      obtain ⟨h1, _, _, _, _, _, h3⟩ := ih _ h hg.2.2
      refine ⟨⟨hg.1, hg.2.1, h1⟩, rfl, rfl, rfl, rfl, id, ?_⟩
      have := like_wrap (p := ws ++ [c!"("]) (q := ws2 ++ [c!")"]) h3
      simpa [Cst.text] using this
  · intro ws neg x ih y h hg
    cases h with
    | refl => exact ⟨hg, rfl, rfl, rfl, rfl, id, .inl rfl⟩
    | sign h =>
      obtain ⟨h1, h2, h3, h4, h5, _, h7⟩ := ih _ h hg.2.1
      refine ⟨⟨hg.1, h1, by rw [h2]; exact hg.2.2⟩, rfl, by rw [Cst.edge, Cst.edge, h3], h4, h5, id, ?_⟩
      have := like_wrap (p := ws ++ [if neg then c!"-" else c!"+"]) (q := []) h7
      simpa [Cst.text] using this
  · intro x ws ih y h hg
    cases h with
    | refl => exact ⟨hg, rfl, rfl, rfl, rfl, id, .inl rfl⟩
    | fact h =>
      obtain ⟨h1, _, _, _, _, h6, h7⟩ := ih _ h hg.2.2
      refine ⟨⟨h6 hg.1, hg.2.1, h1⟩, rfl, rfl, rfl, rfl, id, ?_⟩
      have := like_wrap (p := []) (q := ws ++ [c!"!"]) h7
      simpa [Cst.text] using this
  · intro l ws op r ihl ihr y h hg
    cases h with
    | refl => exact ⟨hg, rfl, rfl, rfl, rfl, id, .inl rfl⟩
    | bin hl hr =>
      obtain ⟨l1, l2, l3, l4, l5, _, l7⟩ := ihl _ hl hg.2.2.1
      obtain ⟨r1, r2, r3, r4, r5, _, r7⟩ := ihr _ hr hg.2.2.2.1
      refine ⟨⟨hg.1, hg.2.1, l1, r1, by rw [l3]; exact hg.2.2.2.2.1, by rw [r2]; exact hg.2.2.2.2.2⟩,
        rfl, by rw [Cst.edge, Cst.edge, r3], r4, r5, id, ?_⟩
      have := (l7.append (show Like (ws ++ [opChar op]) _ from .inl rfl)).append r7
      simpa [Cst.text] using this
  · intro l r ihl ihr y h hg
    obtain ⟨g1, g2, g3, g4, ⟨c, hc, hcl⟩, g6, g7⟩ := hg
    cases h with
    | refl => exact ⟨⟨g1, g2, g3, g4, ⟨c, hc, hcl⟩, g6, g7⟩, rfl, rfl, rfl, rfl, id, .inl rfl⟩
    | juxt hl hr =>
      obtain ⟨l1, l2, l3, l4, l5, _, l7⟩ := ihl _ hl g1
      obtain ⟨r1, r2, r3, r4, r5, _, r7⟩ := ihr _ hr g2
      refine ⟨⟨l1, r1, by rw [l3]; exact g3, by rw [r2]; exact g4, ⟨c, r7.firstTok hc, hcl⟩,
        fun h => r7.notHead (g6 (l4 ▸ h)), fun h => r7.notExp (g7 (l5 ▸ h))⟩,
        rfl, by rw [Cst.edge, Cst.edge, r3], r4, r5, id, l7.append r7⟩
    | @juxtStar l l' r r' ws hw hl hr =>
      obtain ⟨l1, l2, l3, l4, l5, _, l7⟩ := ihl _ hl g1
      obtain ⟨r1, r2, r3, r4, r5, _, r7⟩ := ihr _ hr g2
      refine ⟨⟨by decide, hw, l1, r1, by rw [l3, ← hi]; exact g3, by rw [r2, ← hi]; exact g4⟩,
        by rw [Cst.top, Cst.top, hi], by rw [Cst.edge, Cst.edge, r3, hi], r4, r5, id, ?_⟩
      rw [Cst.text, Cst.text]
      have key : Like (l.text ++ r.text) (l.text ++ (ws ++ opChar .times :: r'.text)) := by
        obtain ⟨d, hd⟩ := written_tok g1
        refine .inr ?_
        cases ws with
        | nil => exact ⟨l.text, r.text, c!"*", r'.text, rfl, rfl, .inr rfl, d, hd⟩
        | cons s ws =>
          exact ⟨l.text, r.text, s, ws ++ opChar .times :: r'.text, rfl, rfl, .inl (hw s (by simp)), d, hd⟩
      rcases l7 with e | ⟨p, a', x, b', e1, e2, hx, hp⟩
      · rw [← e, List.append_assoc]; exact key
      · exact .inr ⟨p, a' ++ r.text, x, b' ++ (ws ++ opChar .times :: r'.text), by rw [e1]; simp,
          by rw [e2]; simp, hx, hp⟩
  · intro x ws ih bs h hg
    cases h with
    | last h =>
      obtain ⟨h1, _, _, _, _, _, h7⟩ := ih _ h hg.2
      exact ⟨⟨hg.1, h1⟩, rfl, h7.append (.inl rfl)⟩
  · intro x ws as ih ihs bs h hg
    cases h with
    | more h hs =>
      obtain ⟨h1, _, _, _, _, _, h7⟩ := ih _ h hg.2.1
      obtain ⟨s1, s2, s3⟩ := ihs _ hs hg.2.2
      refine ⟨⟨hg.1, h1, s1⟩, by rw [CArgs.count, CArgs.count, s2], ?_⟩
      have := (h7.append (show Like (ws ++ [c!","]) _ from .inl rfl)).append s3
      simpa [CArgs.text] using this

/-- Such a replacement does not change the meaning. -/
theorem expl_den {fin : Elem → PM Elem} {ctx : Context} :
    (∀ (x : Cst), ∀ y, Expl x y → y.den fin ctx = x.den fin ctx ∧ y.tree ctx = x.tree ctx) ∧
    (∀ (as : CArgs), ∀ bs, ExplArgs as bs → bs.den fin ctx = as.den fin ctx ∧
      bs.trees ctx = as.trees ctx) := by
  refine cst_ind ?_ ?_ ?_ ?_ ?_ ?_ ?_ ?_ ?_ ?_
  · intro ws txt v y h; cases h; exact ⟨rfl, rfl⟩
  · intro ws nm y h; cases h; exact ⟨rfl, rfl⟩
  · intro ws nm ws2 as ih y h
    cases h with
    | refl => exact ⟨rfl, rfl⟩
    | call h => simp only [Cst.den, Cst.tree, ih _ h, and_self]
  · intro ws x ws2 ih y h
    cases h with
    | refl => exact ⟨rfl, rfl⟩
    | paren h => simp only [Cst.den, Cst.tree, ih _ h, and_self]
  · intro ws neg x ih y h
    cases h with
    | refl => exact ⟨rfl, rfl⟩
    | sign h => simp only [Cst.den, Cst.tree, ih _ h, and_self]
  · intro x ws ih y h
    cases h with
    | refl => exact ⟨rfl, rfl⟩
    | fact h => simp only [Cst.den, Cst.tree, ih _ h, and_self]
  · intro l ws op r ihl ihr y h
    cases h with
    | refl => exact ⟨rfl, rfl⟩
    | bin hl hr => simp only [Cst.den, Cst.tree, ihl _ hl, ihr _ hr, and_self]
  · intro l r ihl ihr y h
    cases h with
    | refl => exact ⟨rfl, rfl⟩
    | juxt hl hr => simp only [Cst.den, Cst.tree, ihl _ hl, ihr _ hr, and_self]
    | juxtStar hw hl hr => simp only [Cst.den, Cst.tree, ihl _ hl, ihr _ hr, and_self]
  · intro x ws ih bs h
    cases h with
    | last h => simp only [CArgs.den, CArgs.trees, ih _ h, and_self]
  · intro x ws as ih ihs bs h
    cases h with
    | more h hs => simp only [CArgs.den, CArgs.trees, ih _ h, ihs _ hs, and_self]

end Xprs
