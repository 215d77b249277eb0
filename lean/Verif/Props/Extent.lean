import Verif.Props.Grammar
import Verif.Lemmas.Extent
/-
Property C58: how large an expression can get.
-/
namespace Xprs
namespace Props
open Spec

/-! ### C58 -/

/-- C58: an expression parsed from `n` bytes and simplified in any way has at most
`2n - 1` nodes and is at most `n` nodes deep.  Every build and context. -/
theorem C58_extent (cfg : Cfg) (w : World) (ctx : Context) (input : Bytes) (e : Xpr)
    (h : Reach cfg w ctx input e) :
    size e.root ≤ 2 * input.length - 1 ∧ height e.root ≤ input.length := by
  have := reach_fits h
  unfold Fits at this; omega

/-- `k` minus signs in front of `x`. -/
def minuses : Nat → Bytes
  | 0 => b!"x"
  | k + 1 => c!"-" :: minuses k

def minusTree : Nat → Elem
  | 0 => .var b!"x"
  | k + 1 => .un .minus (minusTree k)

/-- C58: the bound on the depth cannot be improved: in every build and for every length
there is a text that is parsed to an expression as deep as the text is long. -/
theorem C58_deep (cfg : Cfg) (w : World) (o : Oracle) (k : Nat) :
    (minuses k).length = k + 1 ∧
    ∃ e, parse cfg w o Context.default (minuses k) = .ok e ∧ height e.root = k + 1 := by
  have hlen : ∀ k, (minuses k).length = k + 1 := by
    intro k; induction k with
    | zero => rfl
    | succ k ih => simp [minuses, ih]
  have hh : ∀ k, height (minusTree k) = k + 1 := by
    intro k; induction k with
    | zero => rfl
    | succ k ih => simp [minusTree, height, ih]
  have hfix : ∀ k, simplify cfg w (minusTree k) = .ok (minusTree k) := by
    intro k; induction k with
    | zero => simp [minusTree, simplify]
    | succ k ih =>
      rw [minusTree, simplify, ih]
      cases k <;> simp [simpUn, minusTree]
  have hfin : ∀ k, finOf cfg w (minusTree k) = .ok (minusTree k) := by
    intro k; unfold finOf; split
    · exact hfix k
    · rfl
  have hlook : lookup Context.default b!"x" = .var b!"x" := by rfl
  have hcst : ∀ k, ∃ c : Cst, c.text = minuses k ∧ c.chain cfg = 7 ∧
      c.wf cfg (finOf cfg w) Context.default [] ∧
      c.den (finOf cfg w) Context.default = .ok (minusTree k) := by
    intro k; induction k with
    | zero =>
      refine ⟨.name [] b!"x", rfl, rfl, ⟨by simp [spaces], ⟨⟨c!"x", rfl, by decide⟩, by decide,
        by intro c h; cases h⟩, by rw [hlook]; intro f h; cases h⟩, ?_⟩
      rw [Cst.den, hlook]; rfl
    | succ k ih =>
      obtain ⟨c, h1, h2, h3, h4⟩ := ih
      refine ⟨.sign [] true c, by simp [Cst.text, minuses, h1], rfl, ⟨by simp [spaces], h3, ?_⟩, ?_⟩
      · rw [h2]; decide
      · rw [Cst.den, h4]; simp only [hfin]; rfl
  refine ⟨hlen k, ?_⟩
  obtain ⟨c, h1, _, h3, h4⟩ := hcst k
  refine ⟨⟨minusTree k, findVars (minusTree k) []⟩, ?_, hh k⟩
  refine (C17_exact cfg w o Context.default (minuses k) _ rfl).2
    ⟨c, [], by simp [h1], by simp [spaces], h3, ?_, rfl⟩
  simp only [Cst.meaning, h4, hfin]

/-- `2x` has two bytes and three nodes, which is the most two bytes can have. -/
example : parse0 cfgOpt b!"2x" = .ok ⟨.bin .times (.num (F64.ofNat 2)) (.var b!"x"), [b!"x"]⟩ ∧
    size (.bin .times (.num (F64.ofNat 2)) (.var b!"x")) = 2 * b!"2x".length - 1 := by
  constructor <;> decide +kernel

example : minuses 3 = b!"---x" := rfl

end Props
end Xprs
