import Verif.Spec.Utf8
/-
What `str::trim` takes away.
-/
namespace Xprs
namespace Spec

/-- The characters with the Unicode property `White_Space`. -/
def White (c : Char) : Prop :=
  (0x9 ≤ c.toNat ∧ c.toNat ≤ 0xD) ∨ c.toNat = 0x20 ∨ c.toNat = 0x85 ∨ c.toNat = 0xA0 ∨
  c.toNat = 0x1680 ∨ (0x2000 ≤ c.toNat ∧ c.toNat ≤ 0x200A) ∨ c.toNat = 0x2028 ∨
  c.toNat = 0x2029 ∨ c.toNat = 0x202F ∨ c.toNat = 0x205F ∨ c.toNat = 0x3000

/-- `t` is the text `cs` without the white space at its ends. -/
def Stripped (cs t : List Char) : Prop :=
  ∃ a b, cs = a ++ t ++ b ∧ (∀ c ∈ a, White c) ∧ (∀ c ∈ b, White c) ∧
    (∀ c ∈ t.head?, ¬ White c) ∧ (∀ c ∈ t.getLast?, ¬ White c)

end Spec
end Xprs
