import Verif.Parser
/-
Texts made of characters.  `Parser::parse` takes a `&str`, that is the UTF-8 encoding
of a sequence of characters; the model reads its bytes.
-/
namespace Xprs
namespace Spec

/-- The UTF-8 encoding of a text (`str::as_bytes`). -/
def utf8 (cs : List Char) : Bytes := cs.flatMap String.utf8EncodeChar

/-- The byte offset `k` lies between two characters of the text, or at one of its ends
(`str::is_char_boundary`). -/
def Boundary (cs : List Char) (k : Nat) : Prop := ∃ a b, cs = a ++ b ∧ k = (utf8 a).length

/-- The character shown for a byte: `char::from(u8)`, the character whose code is that
byte. -/
def shown (c : UInt8) : Char := Char.ofUInt8 c

/-- An ASCII character. -/
def ascii (c : Char) : Prop := c.toNat < 128

end Spec
end Xprs
