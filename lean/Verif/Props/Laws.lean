import Verif.Lemmas.Laws
import Verif.Props.ComposeBuilds
/-
Property C90: the laws of arithmetic.
-/
namespace Xprs
namespace Props
open Spec
set_option exponentiation.threshold 4096

/-- C90: trees that the laws make equal have the same value under every map of variables, on
every platform, in checked and in unchecked evaluation: if one has a value, so has the other. -/
theorem C90_laws (e e' : Elem) (h : ByLaws e e') (w : World) (m : HMap F64) (v : F64) :
    (eval w m e = .ok v ↔ eval w m e' = .ok v) ∧ (evalU w m e = .ok v ↔ evalU w m e' = .ok v) := by
  have key : ∀ e, evalU w m e = .ok v ↔ eval w m e = .ok v := by
    intro e
    rw [evalU_eq]
    cases eval w m e with
    | ok u => simp [toUnchecked]
    | error r => cases r <;> simp [toUnchecked]
  refine ⟨byLaws_eval w m h v, ?_⟩
  rw [key, key]
  exact byLaws_eval w m h v

/-- `(a-b)/2` and `0.5*(-b+a)`. -/
example : ByLaws (.bin .divide (.bin .minus (.var b!"a") (.var b!"b")) (.num (F64.ofNat 2)))
    (.bin .times (.num (F64.ofDecimal 5 (-1))) (.bin .plus (.un .minus (.var b!"b")) (.var b!"a"))) := by
  refine .trans (.law (.inverse (p := 2) (q := 1 / 2) _ ?_ ?_ (by norm_num))) (.trans (.law (.mulComm _ _))
    (.bin (.refl _) (.trans (.law (.sub _ _)) (.law (.addComm _ _)))))
  · rw [F64.ofNat_eq (rep_nat (by decide)), value, unit64_eq]; push_cast; congr 1; norm_num
  · have e : F64.ofDecimal 5 (-1) = .fin false (2 ^ 1073) (by decide +kernel) := by decide +kernel
    rw [e, value]; push_cast; congr 1; norm_num

/-- `x` is 1, `y` is 2. -/
def mxy : HMap F64 := (HMap.empty.insert b!"x" F64.f1).insert b!"y" (F64.ofNat 2)

section
variable (cfg : Cfg) (w : World) (o : Oracle) (ctx : Context)

/-- The tree of texts put together, in builds without compile-time optimisations. -/
theorem form_parse (ho : cfg.opt = false) (s : Nat → Bytes) (x : Nat → Xpr)
    (hs : ∀ i, parse cfg w o ctx (s i) = .ok (x i)) : ∀ f : Form, f.Fine ctx →
    ∃ z, parse cfg w o ctx (f.text s) = .ok z ∧ z.root = f.tree fun i => (x i).root
  | .part i, _ => ⟨x i, hs i, rfl⟩
  | .neg f, h => by
    obtain ⟨z, hz, hr⟩ := form_parse ho s x hs f h
    have := C62_prefix cfg w o ctx _ z true hz
    simp only [Xprs.finOf_plain ho, if_true] at this
    exact ⟨_, this, by rw [hr]; rfl⟩
  | .pos f, h => by
    obtain ⟨z, hz, hr⟩ := form_parse ho s x hs f h
    have := C62_prefix cfg w o ctx _ z false hz
    simp only [Xprs.finOf_plain ho, Bool.false_eq_true, if_false] at this
    exact ⟨_, this, by rw [hr]; rfl⟩
  | .infix op f g, h => by
    obtain ⟨y, hy, hr⟩ := form_parse ho s x hs f h.2.1
    obtain ⟨z, hz, hr'⟩ := form_parse ho s x hs g h.2.2
    have := C62_infix cfg w o ctx _ _ y z op h.1 hy hz
    rw [Xprs.finOf_plain ho] at this
    exact ⟨_, this, by rw [hr, hr']; rfl⟩
  | .call b f, h => by
    obtain ⟨z, hz, hr⟩ := form_parse ho s x hs f h.2.2.2
    have := C62_call cfg w o ctx b.name b.toFunc [f.text s] [z] h.1 h.2.1 (by simp)
      (by
        intro n hn
        have h2 := h.2.2.1
        have hn : b.nbArgs = some n := hn
        cases b <;> simp [Builtin.nbArgs] at hn h2 <;> simp [hn])
      (.cons hz .nil)
    rw [Xprs.finOf_plain ho] at this
    exact ⟨_, this, by show Elem.call _ [z.root] = _; rw [hr]; rfl⟩

/-- C90 for texts: in builds without compile-time optimisations, texts put together in two ways
that the laws make equal are both accepted, and have the same value under every map. -/
theorem C90_texts (ho : cfg.opt = false) (s : Nat → Bytes) (x : Nat → Xpr)
    (hs : ∀ i, parse cfg w o ctx (s i) = .ok (x i)) (f g : Form) (hf : f.Fine ctx) (hg : g.Fine ctx)
    (h : ByLaws (f.tree fun i => (x i).root) (g.tree fun i => (x i).root)) :
    ∃ y z, parse cfg w o ctx (f.text s) = .ok y ∧ parse cfg w o ctx (g.text s) = .ok z ∧
      ∀ m v, (y.eval w m = .ok v ↔ z.eval w m = .ok v) ∧ (y.evalUnchecked w m = .ok v ↔ z.evalUnchecked w m = .ok v) := by
  obtain ⟨y, hy, ry⟩ := form_parse cfg w o ctx ho s x hs f hf
  obtain ⟨z, hz, rz⟩ := form_parse cfg w o ctx ho s x hs g hg
  rw [← ry, ← rz] at h
  exact ⟨y, z, hy, hz, fun m v => C90_laws _ _ h w m v⟩

/-- C90 for the other builds: the texts they read alike have the same value up to the sign of
zero, if no step is doubtful. -/
theorem C90_builds_partial (cfg' : Cfg) (o' : Oracle) (hp : cfg.pejmdas = cfg'.pejmdas) (ho : cfg.opt = false)
    (s t : Bytes) (x y x' y' : Xpr) (hns : ∀ ts, Lex s ts → ParensApart ts) (hnt : ∀ ts, Lex t ts → ParensApart ts)
    (hx : parse cfg w o ctx s = .ok x) (hy : parse cfg w o ctx t = .ok y) (hx' : parse cfg' w o' ctx s = .ok x')
    (hy' : parse cfg' w o' ctx t = .ok y') (h : ByLaws x.root y.root) (m : HMap F64) (v u : F64)
    (hw : (NoPower x.root ∧ NoPower y.root) ∨ PowLaws w) (rx : Runs w m x.root v) (ry : Runs w m y.root u) :
    ∃ a b, x'.eval w m = .ok a ∧ y'.eval w m = .ok b ∧ Same a b := by
  obtain ⟨ex, a, ha, sa⟩ := C16_value_partial cfg cfg' w o o' ctx s x x' m v hp ho (hw.imp_left (·.1)) hns hx hx' rx
  obtain ⟨ey, b, hb, sb⟩ := C16_value_partial cfg cfg' w o o' ctx t y y' m u hp ho (hw.imp_left (·.2)) hnt hy hy' ry
  refine ⟨a, b, ha, hb, sa.symm.trans (Same.trans ?_ sb)⟩
  have := (byLaws_eval w m h v).1 ex
  have ey : eval w m y.root = .ok u := ey
  rw [this] at ey
  cases ey
  exact .refl _

end

/-- The texts `x+y` and `y+x` in a build with optimisations, at 1 and 2. -/
example : ∃ a b, Xpr.eval wPow ⟨.bin .plus (.var b!"x") (.var b!"y"), [b!"x", b!"y"]⟩ mxy = .ok a ∧
    Xpr.eval wPow ⟨.bin .plus (.var b!"y") (.var b!"x"), [b!"y", b!"x"]⟩ mxy = .ok b ∧ Same a b := by
  have hx : ∀ {d : UInt8}, (d = c!"x" ∨ d = c!"y") → ∀ {l : Bytes}, notHead nameChar l → Name [d] l := by
    intro d hd l hl
    exact ⟨⟨d, rfl, by rcases hd with rfl | rfl <;> decide⟩, by rcases hd with rfl | rfl <;> decide, hl⟩
  have hap : ∀ {d d' : UInt8}, (d = c!"x" ∨ d = c!"y") → (d' = c!"x" ∨ d' = c!"y") →
      ∀ ts, Lex [d, c!"+", d'] ts → ParensApart ts := by
    intro d d' hd hd' ts h
    have hl : Lex [d, c!"+", d'] [[d], b!"+", [d']] :=
      .name (ws := []) (nm := [d]) (by decide) (hx hd (by intro c hc; cases hc; decide))
        (.sym (ws := []) (by decide) (by decide) (.name (ws := []) (nm := [d']) (by decide)
          (hx hd' (by intro c hc; cases hc)) (.nil (by decide))))
    rw [lex_unique h hl]
    refine apart_cons (fun h => absurd h (not_digitTok (by decide))) (apart_cons (fun h => absurd h (not_digitTok ?_))
      (apart_one _))
    rcases hd' with rfl | rfl <;> decide
  exact C90_builds_partial (plainOf cfgOpt) wPow Oracle.id Context.default cfgOpt Oracle.id rfl rfl b!"x+y" b!"y+x"
    ⟨.bin .plus (.var b!"x") (.var b!"y"), [b!"x", b!"y"]⟩ ⟨.bin .plus (.var b!"y") (.var b!"x"), [b!"y", b!"x"]⟩ _ _
    (hap (.inl rfl) (.inr rfl)) (hap (.inr rfl) (.inl rfl))
    (by decide +kernel) (by decide +kernel) (by decide +kernel) (by decide +kernel)
    (.law (.addComm _ _)) mxy _ _ (.inr wPow_laws) (.bin (.var rfl) (.var rfl) (.plus (by decide +kernel)))
    (.bin (.var rfl) (.var rfl) (.plus (by decide +kernel)))

/-- C90: laws that hold but for the sign of a zero. -/
theorem C90_zero (e e' : Elem) (h : ZeroLaw e e') (w : World) (m : HMap F64) :
    (∃ v u, eval w m e = .ok v ∧ eval w m e' = .ok u ∧ Same v u) ∨
      (∃ r r', eval w m e = .error r ∧ eval w m e' = .error r') := zeroLaw_eval w m h

/-- They are not laws to the bit: for each, there are numbers with zeros of different signs. -/
theorem C90_zero_sign (w : World) (m : HMap F64) :
    (eval w m (.bin .plus (.num (F64.zero true)) (.num F64.f0)) = .ok F64.f0) ∧
    (eval w m (.bin .minus (.num F64.f0) (.num F64.f0)) = .ok F64.f0 ∧
      eval w m (.un .minus (.num F64.f0)) = .ok (F64.zero true)) ∧
    (eval w m (.un .minus (.bin .minus (.num F64.f1) (.num F64.f1))) = .ok (F64.zero true) ∧
      eval w m (.bin .minus (.num F64.f1) (.num F64.f1)) = .ok F64.f0) := by
  refine ⟨?_, ⟨?_, ?_⟩, ?_, ?_⟩ <;> simp only [eval, binF, unF, liftP, Except.ok.injEq] <;> decide +kernel

/-- Finite and not zero. -/
def Ordinary (x : F64) : Prop := value x ≠ none ∧ ¬ IsZero x

theorem ordinary {x : F64} (h : (match x with | .fin _ n _ => n != 0 | _ => false) = true) : Ordinary x := by
  cases x with
  | nan => cases h
  | inf s => cases h
  | fin s n hn =>
    refine ⟨by cases s <;> simp [value], ?_⟩
    rw [isZero_fin]
    simpa using h

theorem not_same {v u : F64} (h : v ≠ u) (hv : Ordinary v) : ¬ Same v u := by
  rintro (e | ⟨hz, -⟩)
  · exact h e
  · exact hv.2 hz

/-- C90: the other laws of real arithmetic fail, for finite numbers other than zero. -/
theorem C90_broken (f g : Elem → Elem → Elem → Elem) (h : NoLaw f g) : ∃ x y z : F64,
    Ordinary x ∧ Ordinary y ∧ Ordinary z ∧
    ∀ w m, ∃ v u, eval w m (f (.num x) (.num y) (.num z)) = .ok v ∧
      eval w m (g (.num x) (.num y) (.num z)) = .ok u ∧ ¬ Same v u := by
  have h1 : Ordinary (F64.ofDecimal 1 (-1)) := ordinary (by decide +kernel)
  have h2 : Ordinary (F64.ofDecimal 2 (-1)) := ordinary (by decide +kernel)
  have h3 : Ordinary (F64.ofDecimal 3 (-1)) := ordinary (by decide +kernel)
  have hn : ∀ n, (match F64.ofNat n with | .fin _ n _ => n != 0 | _ => false) = true → Ordinary (F64.ofNat n) :=
    fun n h => ordinary h
  cases h with
  | addAssoc =>
    exact ⟨_, _, _, h1, h2, h3, fun w m => ⟨_, _, rfl, rfl, not_same (by decide +kernel) (ordinary (by decide +kernel))⟩⟩
  | mulAssoc =>
    exact ⟨_, _, _, h1, h2, h3, fun w m => ⟨_, _, rfl, rfl, not_same (by decide +kernel) (ordinary (by decide +kernel))⟩⟩
  | distrib =>
    exact ⟨_, _, _, hn 100 (by decide +kernel), h1, h2, fun w m =>
      ⟨_, _, rfl, rfl, not_same (by decide +kernel) (ordinary (by decide +kernel))⟩⟩
  | addSub =>
    exact ⟨_, _, _, h1, hn 3 (by decide +kernel), h2, fun w m =>
      ⟨_, _, rfl, rfl, not_same (by decide +kernel) (ordinary (by decide +kernel))⟩⟩
  | mulDiv =>
    exact ⟨_, _, _, hn 1 (by decide +kernel), hn 49 (by decide +kernel), h2, fun w m =>
      ⟨_, _, rfl, rfl, not_same (by decide +kernel) (ordinary (by decide +kernel))⟩⟩
  | divMul =>
    exact ⟨_, _, _, h1, hn 3 (by decide +kernel), h2, fun w m =>
      ⟨_, _, rfl, rfl, not_same (by decide +kernel) (ordinary (by decide +kernel))⟩⟩
  | inverse =>
    exact ⟨_, _, _, hn 49 (by decide +kernel), hn 49 (by decide +kernel), h2, fun w m =>
      ⟨_, _, rfl, rfl, not_same (by decide +kernel) (ordinary (by decide +kernel))⟩⟩
  | sqrtSq =>
    exact ⟨_, _, _, hn 2 (by decide +kernel), h2, h2, fun w m =>
      ⟨_, _, rfl, rfl, not_same (by decide +kernel) (ordinary (by decide +kernel))⟩⟩
  | parts =>
    exact ⟨_, _, _, hn 1 (by decide +kernel), hn 2 (by decide +kernel), hn 5 (by decide +kernel), fun w m =>
      ⟨_, _, rfl, rfl, not_same (by decide +kernel) (ordinary (by decide +kernel))⟩⟩

/-- `floor(-(x))` and `-(ceil(x))`, for the text `x+0.5`. -/
example : ∃ y z, parse cfgPlain w0 Oracle.id Context.default b!"floor(-(x+0.5))" = .ok y ∧
    parse cfgPlain w0 Oracle.id Context.default b!"-(ceil(x+0.5))" = .ok z ∧
    ∀ m v, (y.eval w0 m = .ok v ↔ z.eval w0 m = .ok v) ∧
      (y.evalUnchecked w0 m = .ok v ↔ z.evalUnchecked w0 m = .ok v) :=
  C90_texts cfgPlain w0 Oracle.id Context.default rfl (fun _ => b!"x+0.5")
    (fun _ => ⟨.bin .plus (.var b!"x") (.num (F64.ofDecimal 5 (-1))), [b!"x"]⟩) (fun _ => by decide +kernel)
    (.call .floor (.neg (.part 0))) (.neg (.call .ceil (.part 0)))
    ⟨⟨⟨_, rfl, by decide⟩, by decide⟩, rfl, by decide, trivial⟩
    ⟨⟨⟨_, rfl, by decide⟩, by decide⟩, rfl, by decide, trivial⟩ (.law (.floorNeg _))

end Props
end Xprs
