import Verif.Spec.Errors
/-
Which error belongs to which text: a reading from the left, in terms of the grammar
(`Spec/Grammar.lean`).  A text is wrong at the first place where what has been read so
far cannot be continued; the rules below say, place by place, what is reported there.
Nothing here refers to the parser: only its type of errors is used.
-/
namespace Xprs
namespace Spec

/-- What is being read. -/
inductive Place where
  /-- an expression whose operators are above level `p` -/
  | expr (p : Nat)
  /-- one operand, its first character coming next -/
  | operand
  /-- an argument list, after `(` or `,` -/
  | args

/-- The text of `x`, followed by `rest`, is read as `x`, and operators above level `p`
may follow. -/
structure Begins (cfg : Cfg) (fin : Elem → PM Elem) (ctx : Context) (p : Nat) (x : Cst)
    (rest : Bytes) : Prop where
  wf : x.wf cfg fin ctx rest
  closed : x.closed cfg fin ctx rest
  level : p < x.chain cfg
  sound : ∃ a, x.den fin ctx = .ok a

/-- The text of `x`, followed by `rest`, is read as the whole expression `x`: `rest`
does not continue it. -/
structure Completes (cfg : Cfg) (fin : Elem → PM Elem) (ctx : Context) (x : Cst)
    (rest : Bytes) : Prop where
  wf : x.wf cfg fin ctx rest
  closed : x.closed cfg fin ctx rest
  stops : stops cfg 0 (isNumber fin ctx x) rest
  sound : ∃ a, x.meaning fin ctx = .ok a

/-- `txt`, followed by `rest`, is as much of the text as can belong to a number: digits,
points and underscores, beginning with a digit or a point, and an exponent if there is
one. -/
def NumberText (txt rest : Bytes) : Prop :=
  ∃ mant, (∃ c, mant.head? = some c ∧ (digit c ∨ c = c!".")) ∧ (∀ c ∈ mant, mantChar c) ∧
    ((txt = mant ∧ notHead mantChar rest ∧ ¬ expStart rest) ∨
     (∃ e sg ds, (e = c!"e" ∨ e = c!"E") ∧ (sg = [] ∨ sg = [c!"+"] ∨ sg = [c!"-"]) ∧
        ds ≠ [] ∧ (∀ c ∈ ds, digit c) ∧ txt = mant ++ e :: (sg ++ ds) ∧ notHead digit rest))

/-- An argument in which a character is out of place is reported as missing; all other
errors in arguments are reported as they are. -/
def inArgument (e : PErr) : PErr :=
  match e.kind with
  | .unexpectedToken _ => ⟨.missingArgument, e.off - 1, 2⟩
  | _ => e

/-- Reading `text` at offset `o` of the source fails with the error. -/
inductive Fault (cfg : Cfg) (fin : Elem → PM Elem) (ctx : Context) :
    Place → Nat → Bytes → PErr → Prop
  /-- the first operand is wrong -/
  | first {p o ws t e} : spaces ws → Fault cfg fin ctx .operand (o + ws.length) t e →
      Fault cfg fin ctx (.expr p) o (ws ++ t) e
  /-- the operand after an operator is wrong -/
  | right {p o} {x : Cst} {ws op t e} : Begins cfg fin ctx p x (ws ++ opChar op :: t) → spaces ws →
      p < level op → Fault cfg fin ctx (.expr (level op)) (o + x.text.length + ws.length + 1) t e →
      Fault cfg fin ctx (.expr p) o (x.text ++ (ws ++ opChar op :: t)) e
  /-- the operand of an implicit multiplication is wrong -/
  | juxt {p o} {x : Cst} {t c e} : Begins cfg fin ctx p x t → p < implLevel cfg → firstTok t = some c →
      (lower c ∨ c = c!"(" ∨ (digit c ∧ ¬ isNumber fin ctx x)) →
      Fault cfg fin ctx (.expr (implLevel cfg)) (o + x.text.length) t e →
      Fault cfg fin ctx (.expr p) o (x.text ++ t) e
  /-- there is no operand -/
  | ended {o} : Fault cfg fin ctx .operand o [] ⟨.unexpectedEnd, o - 1, 0⟩
  /-- a number that is none -/
  | number {o txt rest} : NumberText txt rest → (∀ v, ¬ Literal txt rest v) →
      Fault cfg fin ctx .operand o (txt ++ rest) ⟨.malformedNumber txt, o, txt.length⟩
  /-- a function that is not called -/
  | uncalled {o nm ws t f} : Name nm (ws ++ t) → lookup ctx nm = .func f → spaces ws →
      notHead (fun c => space c ∨ c = c!"(") t →
      Fault cfg fin ctx .operand o (nm ++ (ws ++ t))
        ⟨.expectedToken c!"(", o + nm.length + ws.length, 0⟩
  /-- a call with a wrong argument list -/
  | call {o nm ws t f e} : Name nm (ws ++ c!"(" :: t) → lookup ctx nm = .func f → spaces ws →
      Fault cfg fin ctx .args (o + nm.length + ws.length + 1) t e →
      Fault cfg fin ctx .operand o (nm ++ (ws ++ c!"(" :: t)) e
  /-- a call with too few arguments -/
  | few {o nm ws} {as : CArgs} {rest f n} : Name nm (ws ++ c!"(" :: (as.text ++ c!")" :: rest)) →
      lookup ctx nm = .func f → f.nbArgs = some n → spaces ws → as.wf cfg fin ctx rest →
      (∃ es, as.den fin ctx = .ok es) → as.count < n →
      Fault cfg fin ctx .operand o (nm ++ (ws ++ c!"(" :: (as.text ++ c!")" :: rest)))
        ⟨.tooFew n as.count, o, (nm ++ (ws ++ c!"(" :: (as.text ++ [c!")"]))).length⟩
  /-- a call with too many arguments -/
  | many {o nm ws} {as : CArgs} {rest f n} : Name nm (ws ++ c!"(" :: (as.text ++ c!")" :: rest)) →
      lookup ctx nm = .func f → f.nbArgs = some n → spaces ws → as.wf cfg fin ctx rest →
      (∃ es, as.den fin ctx = .ok es) → n < as.count →
      Fault cfg fin ctx .operand o (nm ++ (ws ++ c!"(" :: (as.text ++ c!")" :: rest)))
        ⟨.tooMany n as.count, o, (nm ++ (ws ++ c!"(" :: (as.text ++ [c!")"]))).length⟩
  /-- the operand of a sign is wrong -/
  | sign {o c t e} : c = c!"+" ∨ c = c!"-" → Fault cfg fin ctx (.expr signLevel) (o + 1) t e →
      Fault cfg fin ctx .operand o (c :: t) e
  /-- the expression in parentheses is wrong -/
  | paren {o t e} : Fault cfg fin ctx (.expr 0) (o + 1) t e →
      Fault cfg fin ctx .operand o (c!"(" :: t) e
  /-- the parenthesis is not closed -/
  | unclosed {o} {x : Cst} {ws t} : Completes cfg fin ctx x (ws ++ t) → spaces ws →
      notHead (fun c => space c ∨ c = c!")") t →
      Fault cfg fin ctx .operand o (c!"(" :: (x.text ++ (ws ++ t)))
        ⟨.expectedToken c!")", o + 1 + x.text.length + ws.length, 0⟩
  /-- a closing parenthesis in place of an operand -/
  | close {o t} : Fault cfg fin ctx .operand o (c!")" :: t) ⟨.unexpectedToken c!")", o, 0⟩
  /-- a character no operand begins with -/
  | illegal {o c t} : ¬ operandChar c → ¬ space c →
      Fault cfg fin ctx .operand o (c :: t) ⟨.illegalCharacter c, o, 0⟩
  /-- an argument is wrong -/
  | argument {o t e} : Fault cfg fin ctx (.expr 0) o t e →
      Fault cfg fin ctx .args o t (inArgument e)
  /-- after an argument comes neither `,` nor `)` -/
  | after {o} {x : Cst} {ws c t} : Completes cfg fin ctx x (ws ++ c :: t) → spaces ws →
      ¬ space c → c ≠ c!"," → c ≠ c!")" →
      Fault cfg fin ctx .args o (x.text ++ (ws ++ c :: t))
        ⟨.unexpectedToken c, o + x.text.length + ws.length, 0⟩
  /-- the source ends after an argument -/
  | cut {o} {x : Cst} {ws} : Completes cfg fin ctx x ws → spaces ws →
      Fault cfg fin ctx .args o (x.text ++ ws)
        ⟨.unexpectedEnd, o + x.text.length + ws.length - 1, 0⟩
  /-- a later argument is wrong -/
  | next {o} {x : Cst} {ws t e} : Completes cfg fin ctx x (ws ++ c!"," :: t) → spaces ws →
      Fault cfg fin ctx .args (o + x.text.length + ws.length + 1) t e →
      Fault cfg fin ctx .args o (x.text ++ (ws ++ c!"," :: t)) e

/-- The error of a whole source: it does not begin with an expression, or something
follows the expression. -/
def Faulty (cfg : Cfg) (fin : Elem → PM Elem) (ctx : Context) (src : Bytes) (e : PErr) : Prop :=
  Fault cfg fin ctx (.expr 0) 0 src e ∨
  ∃ (x : Cst) (ws : Bytes) (c : UInt8) (t : Bytes), src = x.text ++ (ws ++ c :: t) ∧ Completes cfg fin ctx x (ws ++ c :: t) ∧
    spaces ws ∧ ¬ space c ∧ e = ⟨.unexpectedToken c, x.text.length + ws.length, 0⟩

end Spec
end Xprs
