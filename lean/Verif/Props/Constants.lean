import Verif.Props.Constant
/-
Property C68 for a whole table of constants.
-/
namespace Xprs
namespace Props
open Spec

/-- `set_var` for every entry of a table, from the first to the last. -/
def setVars (ctx : Context) (defs : List (Bytes × F64)) : Context :=
  defs.foldl (fun c d => c.setVar d.1 d.2) ctx

/-- C68 for a table of constants with different names, in builds without optimizations: what is
read with variables is read with the constants, none of the names is a variable any more, and
evaluation in `m` gives what the variables gave in any `m'` that has the values of the table and
else those of `m`.  Missing, as in `C68_partial`: texts in which a number follows such a name
directly, and builds with optimizations. -/
theorem C68_many_partial (cfg : Cfg) (w : World) (o : Oracle) (input : Bytes) (ho : cfg.opt = false) :
    ∀ (defs : List (Bytes × F64)) (ctx : Context) (x : Xpr), (defs.map Prod.fst).Nodup →
    (∀ d ∈ defs, lookup ctx d.1 = .var d.1 ∧ ∀ ts, Lex input ts → ApartFrom d.1 ts) →
    parse cfg w o ctx input = .ok x →
    ∃ y, parse cfg w o (setVars ctx defs) input = .ok y ∧
      (∀ k, k ∈ y.vars ↔ k ∈ x.vars ∧ k ∉ defs.map Prod.fst) ∧
      ∀ m m' : HMap F64, (∀ d ∈ defs, m'.get d.1 = some d.2) →
        (∀ k, k ∉ defs.map Prod.fst → m'.get k = m.get k) → y.eval w m = x.eval w m'
  | [], ctx, x, _, _, h => by
    refine ⟨x, h, fun k => by simp, fun m m' _ h2 => ?_⟩
    have : m = m' := funext fun k => (h2 k (by simp)).symm
    rw [this]
  | (n, v) :: defs, ctx, x, hnd, hd, h => by
    rw [List.map_cons, List.nodup_cons] at hnd
    obtain ⟨hl, ha⟩ := hd (n, v) (by simp)
    obtain ⟨y1, h1, -, hv1, he1⟩ := C68_partial cfg w o ctx n v input x ho hl ha h
    obtain ⟨y, h2, hv2, he2⟩ := C68_many_partial cfg w o input ho defs (ctx.setVar n v) y1 hnd.2
      (fun d hm => by
        refine ⟨?_, (hd d (by simp [hm])).2⟩
        rw [lookup_setVar, if_neg, (hd d (by simp [hm])).1]
        intro hc
        have := List.mem_map_of_mem (f := Prod.fst) hm
        rw [hc] at this
        exact hnd.1 this) h1
    refine ⟨y, h2, fun k => ?_, fun m m' hm1 hm2 => ?_⟩
    · rw [hv2, hv1, List.map_cons, List.mem_cons, not_or, and_assoc]
    · have hi : ∃ m1 : HMap F64, m' = m1.insert n v ∧ (∀ d ∈ defs, m1.get d.1 = some d.2) ∧
          ∀ k, k ∉ defs.map Prod.fst → m1.get k = m.get k := by
        refine ⟨fun k => if k = n then m k else m' k, ?_, ?_, ?_⟩
        · funext k
          by_cases hk : k = n
          · subst hk
            have := hm1 (k, v) (by simp)
            simpa [HMap.insert, HMap.get] using this
          · simp [HMap.insert, hk]
        · intro d hdm
          have hne : d.1 ≠ n := by
            intro hc
            have := List.mem_map_of_mem (f := Prod.fst) hdm
            rw [hc] at this
            exact hnd.1 this
          have := hm1 d (by simp [hdm])
          simpa [HMap.get, hne] using this
        · intro k hk
          by_cases hkn : k = n
          · simp [HMap.get, hkn]
          · have := hm2 k (by simp [hkn]; simpa using hk)
            simpa [HMap.get, hkn] using this
      obtain ⟨m1, rfl, ha, hb⟩ := hi
      rw [he2 m m1 ha hb, he1]

/-- Tokens consist of bytes of the text. -/
theorem lex_bytes {s : Bytes} {ts : List Bytes} (h : Lex s ts) : ∀ t ∈ ts, ∀ c ∈ t, c ∈ s := by
  induction h with
  | nil _ => simp
  | num _ _ _ ih | name _ _ _ ih =>
    intro t ht c hc
    rcases List.mem_cons.mp ht with rfl | ht
    · simp [hc]
    · simp [ih t ht c hc]
  | sym _ _ _ ih =>
    intro t ht c hc
    rcases List.mem_cons.mp ht with rfl | ht
    · simp at hc; simp [hc]
    · simp [ih t ht c hc]

/-- A text without digits has no numbers that begin with one. -/
theorem apart_noDigit {s : Bytes} (hs : ∀ c ∈ s, ¬ digit c) (n : Bytes) : ∀ ts, Lex s ts → ApartFrom n ts := by
  rintro ts h p a b q rfl ⟨c, hc, hd⟩
  exact absurd hd (hs c (lex_bytes h b (by simp) c (List.mem_of_mem_head? hc)))

/-- The hypotheses hold of `a*x + b` with `a` and `b` constants. -/
def ab : List (Bytes × F64) := [(b!"a", F64.ofNat 2), (b!"b", F64.ofNat 3)]
example : (ab.map Prod.fst).Nodup := by decide
example : ∀ d ∈ ab, lookup Context.default d.1 = .var d.1 := by
  intro d hd
  simp only [ab, List.mem_cons, List.not_mem_nil, or_false] at hd
  rcases hd with rfl | rfl <;> rfl
example : ∀ d ∈ ab, ∀ ts, Lex b!"a*x+b" ts → ApartFrom d.1 ts :=
  fun d _ => apart_noDigit (by decide) d.1
example : parse cfgPlain w0 Oracle.id (setVars Context.default ab) b!"a*x+b" =
    .ok ⟨.bin .plus (.bin .times (.num (F64.ofNat 2)) (.var b!"x")) (.num (F64.ofNat 3)), [b!"x"]⟩ := by
  decide +kernel

end Props
end Xprs
