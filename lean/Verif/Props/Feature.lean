import Verif.Spec.Feature
import Verif.Props.Builds
/-
Property C128: which builds there are.
-/
namespace Xprs
namespace Props
open Spec

theorem enabled_iff {rs : List Request} {f : Feature} : enabled rs f = true ↔ Wants rs f := by
  unfold enabled Wants Asks
  rw [List.any_eq_true]
  refine exists_congr fun r => and_congr_right fun _ => ?_
  rw [Bool.or_eq_true, Bool.and_eq_true, List.contains_iff_mem]
  refine or_congr_right (and_congr_right fun _ => ?_)
  cases f <;> decide

theorem enabled_false {rs : List Request} {f : Feature} : enabled rs f = false ↔ ¬ Wants rs f := by
  rw [← enabled_iff, Bool.not_eq_true]

theorem script_some {tc : Option Toolchain} (h : Usable tc) : ∃ t lines, tc = some t ∧ buildScript tc = some lines ∧
    (cfgFlags lines).contains b!"NIGHTLY" = decide (t.channel = .nightly) := by
  obtain ⟨t, rfl, h⟩ := h
  refine ⟨t, _, rfl, if_pos h, ?_⟩
  cases t.channel <;> decide +kernel

theorem script_none {tc : Option Toolchain} (h : ¬ Usable tc) : buildScript tc = none := by
  cases tc with
  | none => rfl
  | some t => exact if_neg fun k => h ⟨t, rfl, k⟩

theorem stable_features {t : Toolchain} {lines : List Bytes}
    (hn : (cfgFlags lines).contains b!"NIGHTLY" = decide (t.channel = .nightly)) :
    ¬ (unstable (cfgFlags lines) ≠ [] ∧ t.channel.acceptsFeatures = false) := by
  rintro ⟨h1, h2⟩
  unfold unstable at h1
  rw [hn] at h1
  cases hc : t.channel <;> rw [hc] at h1 h2
  · exact h1 rfl
  · exact h1 rfl
  · cases h2
  · exact h1 rfl

/-- The texts of the two `compile_error!`s. -/
def bothText : Bytes := b!"You can't enable both features `pemdas` and `pejmdas` at the same time."
def neitherText : Bytes := b!"You must enable either feature `pemdas` or `pejmdas`."

/-- **C128, exact.** What a build leads to, in all cases. -/
theorem C128_exact (tc : Option Toolchain) (checks : Bool) (usize : Width) (rs : List Request) :
    (¬ Usable tc → build tc checks usize rs = .scriptPanic) ∧
    (Usable tc → Wants rs .pemdas → Wants rs .pejmdas → build tc checks usize rs = .failed [bothText]) ∧
    (Usable tc → ¬ Wants rs .pemdas → ¬ Wants rs .pejmdas → build tc checks usize rs = .failed [neitherText]) ∧
    (∀ t, tc = some t → 1 ≤ t.major → (Wants rs .pemdas ↔ ¬ Wants rs .pejmdas) →
      ∃ cfg, build tc checks usize rs = .built cfg (implPrec cfg) ∧ (cfg.pejmdas = true ↔ Wants rs .pejmdas) ∧
        (cfg.opt = true ↔ Wants rs .optimizations) ∧ (cfg.nightly = true ↔ t.channel = .nightly) ∧
        cfg.overflowChecks = checks ∧ cfg.usize = usize) := by
  refine ⟨fun h => ?_, fun h h1 h2 => ?_, fun h h1 h2 => ?_, fun t ht hm hw => ?_⟩
  · unfold build
    rw [script_none h]
  · obtain ⟨t, lines, rfl, hl, -⟩ := script_some h
    unfold build
    rw [hl]
    simp [compileErrors, enabled_iff.2 h1, enabled_iff.2 h2, bothText]
  · obtain ⟨t, lines, rfl, hl, -⟩ := script_some h
    unfold build
    rw [hl]
    simp [compileErrors, enabled_false.2 h1, enabled_false.2 h2, neitherText]
  · obtain ⟨t', lines, ht', hl, hn⟩ := script_some ⟨t, ht, hm⟩
    rw [ht] at ht'
    cases ht'
    subst ht
    refine ⟨⟨enabled rs .optimizations, enabled rs .pejmdas, decide (t.channel = .nightly), checks, usize⟩, ?_, enabled_iff,
      enabled_iff, by simp, rfl, rfl⟩
    unfold build
    rw [hl]
    have hs := stable_features hn
    by_cases h : Wants rs .pejmdas
    · have h' : ¬ Wants rs .pemdas := fun k => hw.1 k h
      simp only [compileErrors, precedenceItems, enabled_iff.2 h, enabled_false.2 h', if_neg hs, hn]
      simp [implPrec]
    · have h' : Wants rs .pemdas := hw.2 h
      simp only [compileErrors, precedenceItems, enabled_iff.2 h', enabled_false.2 h, if_neg hs, hn]
      simp [implPrec]

theorem builds_iff {tc : Option Toolchain} {rs : List Request} :
    Builds tc rs ↔ Usable tc ∧ (Wants rs .pemdas ↔ ¬ Wants rs .pejmdas) := by
  constructor
  · intro h
    obtain ⟨cfg, p, h⟩ := h false .w64
    obtain ⟨e1, e2, e3, -⟩ := C128_exact tc false .w64 rs
    have hu : Usable tc := by
      refine Classical.byContradiction fun k => ?_
      rw [e1 k] at h
      cases h
    refine ⟨hu, fun h1 h2 => ?_, fun h1 => ?_⟩
    · rw [e2 hu h1 h2] at h; cases h
    · refine Classical.byContradiction fun h2 => ?_
      rw [e3 hu h2 h1] at h; cases h
  · rintro ⟨⟨t, ht, hm⟩, hw⟩ checks usize
    obtain ⟨cfg, h, -⟩ := (C128_exact tc checks usize rs).2.2.2 t ht hm hw
    exact ⟨cfg, _, h⟩

/-- **C128, all.** Every configuration the other theorems speak of is a build of somebody. -/
theorem C128_all (cfg : Cfg) : ∃ t r, build (some t) cfg.overflowChecks cfg.usize [r] = .built cfg (implPrec cfg) := by
  obtain ⟨o, p, n, c, u⟩ := cfg
  refine ⟨⟨1, if n then .nightly else .stable⟩,
    ⟨false, (if p then [.pejmdas] else [.pemdas]) ++ (if o then [.optimizations] else [])⟩, ?_⟩
  cases o <;> cases p <;> cases n <;> rfl

/-- Two dependents, each of which builds alone, build together. -/
def C128_claim : Prop := ∀ tc r s, Builds tc [r] → Builds tc [s] → Builds tc [r, s]

theorem wants_one {r : Request} {f : Feature} : Wants [r] f ↔ Asks r f := by
  unfold Wants
  simp

/-- It is false: one that leaves the defaults on and one that asks for `pejmdas` do not. -/
theorem C128_refuted : ¬ C128_claim := by
  intro h
  have h1 : Builds (some ⟨1, .stable⟩) [⟨true, []⟩] := builds_iff.2 ⟨⟨_, rfl, Nat.le_refl _⟩, by simp [wants_one, Asks]⟩
  have h2 : Builds (some ⟨1, .stable⟩) [⟨false, [.pejmdas]⟩] :=
    builds_iff.2 ⟨⟨_, rfl, Nat.le_refl _⟩, by simp [wants_one, Asks]⟩
  have := (builds_iff.1 (h _ _ _ h1 h2)).2.1 ⟨_, List.mem_cons_self, .inr ⟨rfl, by decide⟩⟩
  exact this ⟨_, List.mem_cons_of_mem _ List.mem_cons_self, .inl (List.mem_singleton.2 rfl)⟩

/-- **C128, together.** Dependents that build alone build together exactly if they ask for the same order of
operations. -/
theorem C128_together (tc : Option Toolchain) (rs : List Request) (hne : rs ≠ []) (h : ∀ r ∈ rs, Builds tc [r]) :
    Builds tc rs ↔ ∀ r ∈ rs, ∀ s ∈ rs, (Asks r .pejmdas ↔ Asks s .pejmdas) := by
  obtain ⟨r0, h0⟩ := List.exists_mem_of_ne_nil rs hne
  have hu : Usable tc := (builds_iff.1 (h r0 h0)).1
  have one : ∀ r ∈ rs, (Asks r .pemdas ↔ ¬ Asks r .pejmdas) := fun r hr => by
    have := (builds_iff.1 (h r hr)).2
    rwa [wants_one, wants_one] at this
  rw [builds_iff]
  constructor
  · rintro ⟨-, hw⟩ r hr s hs
    have key : ∀ r ∈ rs, ∀ s ∈ rs, Asks r .pejmdas → Asks s .pejmdas := fun r hr s hs k => by
      refine Classical.byContradiction fun k' => ?_
      exact hw.1 ⟨s, hs, (one s hs).2 k'⟩ ⟨r, hr, k⟩
    exact ⟨key r hr s hs, key s hs r hr⟩
  · intro k
    refine ⟨hu, ?_, fun hn => ?_⟩
    · rintro ⟨r, hr, h1⟩ ⟨s, hs, h2⟩
      exact (one r hr).1 h1 ((k r hr s hs).2 h2)
    · exact ⟨r0, h0, (one r0 h0).2 fun h1 => hn ⟨r0, h0, h1⟩⟩

/-- **C128, one more.** A further dependent can only stop the build or switch the simplification on; so
(with C16) a text is accepted as before, if no number stands directly after a closing parenthesis. -/
theorem C128_more (tc : Option Toolchain) (checks : Bool) (usize : Width) (rs : List Request) (r : Request) (cfg cfg' : Cfg)
    (p p' : Nat) (h : build tc checks usize rs = .built cfg p) (h' : build tc checks usize (r :: rs) = .built cfg' p') :
    p = p' ∧ (cfg' = cfg ∨ (cfg.opt = false ∧ cfg' = { cfg with opt := true })) ∧
    ∀ (w : World) (o o' : Oracle) (ctx : Context) (input : Bytes), CtxTotal w ctx → ¬ DoubleBang input →
      (∀ ts, Lex input ts → ParensApart ts) → ctx.getExpected = none →
      ((∃ x, parse cfg w o ctx input = .ok x) ↔ (∃ x, parse cfg' w o' ctx input = .ok x)) := by
  have info : ∀ {rs cfg p}, build tc checks usize rs = .built cfg p → p = implPrec cfg ∧
      (cfg.pejmdas = true ↔ Wants rs .pejmdas) ∧ (Wants rs .pemdas ↔ ¬ Wants rs .pejmdas) ∧
      (cfg.opt = true ↔ Wants rs .optimizations) ∧ (cfg.nightly = true ↔ ∃ t, tc = some t ∧ t.channel = .nightly) ∧
      cfg.overflowChecks = checks ∧ cfg.usize = usize := by
    intro rs cfg p h
    obtain ⟨e1, e2, e3, e4⟩ := C128_exact tc checks usize rs
    have hu : Usable tc := by
      refine Classical.byContradiction fun k => ?_
      rw [e1 k] at h
      cases h
    have hw : Wants rs .pemdas ↔ ¬ Wants rs .pejmdas := by
      refine ⟨fun h1 h2 => ?_, fun h1 => ?_⟩
      · rw [e2 hu h1 h2] at h; cases h
      · refine Classical.byContradiction fun h2 => ?_
        rw [e3 hu h2 h1] at h; cases h
    obtain ⟨t, ht, hm⟩ := hu
    obtain ⟨c, h1, h2, h3, h4, h5⟩ := e4 t ht hm hw
    rw [h1] at h
    cases h
    refine ⟨rfl, h2, hw, h3, h4.trans ⟨fun k => ⟨t, ht, k⟩, ?_⟩, h5⟩
    rintro ⟨t', ht', k⟩
    rw [ht] at ht'
    cases ht'
    exact k
  obtain ⟨a1, a2, a3, a4, a5, a6, a7⟩ := info h
  obtain ⟨b1, b2, b3, b4, b5, b6, b7⟩ := info h'
  have up : ∀ f, Wants rs f → Wants (r :: rs) f := fun f ⟨s, hs, k⟩ => ⟨s, List.mem_cons_of_mem _ hs, k⟩
  have hp : cfg.pejmdas = cfg'.pejmdas := by
    rw [Bool.eq_iff_iff, a2, b2]
    refine ⟨up _, fun k => ?_⟩
    refine Classical.byContradiction fun k' => ?_
    exact b3.1 (up _ (a3.2 k')) k
  have ho : cfg.opt = true → cfg'.opt = true := fun k => b4.2 (up _ (a4.1 k))
  have hn : cfg.nightly = cfg'.nightly := by rw [Bool.eq_iff_iff, a5, b5]
  refine ⟨by rw [a1, b1]; unfold implPrec; rw [hp], ?_, fun w o o' ctx input hw hb hn' he =>
    C16_accept_partial cfg cfg' w o o' ctx input hp hw hb hn' he⟩
  obtain ⟨o, p, n, c, u⟩ := cfg
  obtain ⟨o', p', n', c', u'⟩ := cfg'
  dsimp only at *
  subst hp hn a6 a7 b6 b7
  cases o <;> cases o'
  · exact .inl rfl
  · exact .inr ⟨rfl, rfl⟩
  · exact absurd (ho rfl) (by decide)
  · exact .inl rfl

/-- **C128, unstable features.** The crate asks for unstable features exactly of a nightly compiler, so never of one
that refuses them. -/
theorem C128_unstable (t : Toolchain) (h : 1 ≤ t.major) : ∃ lines, buildScript (some t) = some lines ∧
    (unstable (cfgFlags lines) ≠ [] ↔ t.channel = .nightly) ∧
    (t.channel.acceptsFeatures = false → unstable (cfgFlags lines) = []) := by
  obtain ⟨t', lines, ht, hl, hn⟩ := script_some ⟨t, rfl, h⟩
  cases ht
  refine ⟨lines, hl, ?_, fun k => Classical.byContradiction fun k' => stable_features hn ⟨k', k⟩⟩
  unfold unstable
  rw [hn]
  by_cases hc : t.channel = .nightly <;> simp [hc]

/-- Cases: the default build of a stable compiler; two dependents with the same order, of which one wants
simplification; a library for `pejmdas` beside an application that left the defaults on; no features. -/
example : build (some ⟨1, .stable⟩) true .w64 [⟨true, []⟩] = .built ⟨true, false, false, true, .w64⟩ 2 ∧
    build (some ⟨1, .nightly⟩) false .w64 [⟨false, [.pejmdas]⟩, ⟨false, [.pejmdas, .optimizations]⟩] =
      .built ⟨true, true, true, false, .w64⟩ 3 ∧
    build (some ⟨1, .stable⟩) true .w64 [⟨true, []⟩, ⟨false, [.pejmdas]⟩] = .failed [bothText] ∧
    build (some ⟨1, .stable⟩) true .w64 [⟨false, [.optimizations]⟩] = .failed [neitherText] ∧
    build (some ⟨0, .stable⟩) true .w64 [⟨true, []⟩] = .scriptPanic := by decide +kernel

/-- A common mistake: `pejmdas` asked for beside the defaults. -/
example : build (some ⟨1, .stable⟩) true .w64 [⟨true, [.pejmdas]⟩] = .failed [bothText] := by decide +kernel

end Props
end Xprs
