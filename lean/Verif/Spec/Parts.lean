import Verif.Spec.Doc
/-
Parts of a text in parentheses (for C85).
-/
namespace Xprs
namespace Spec

/-- `t` stands in `s` between an opening parenthesis and the closing one that belongs to it,
`a` in front of the former and `b` behind the latter. -/
def Group (s a t b : Bytes) : Prop := s = a ++ c!"(" :: (t ++ c!")" :: b) ∧ Balanced t

end Spec
end Xprs
