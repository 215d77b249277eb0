import Verif.Spec.Text
/-
The documented language, twice: as a plain context-free grammar over texts (`Doc`,
without precedences), and as the precedence-respecting ways to write out a tree
(`Cst.good`, `Cst.tree`).  Nothing here refers to the parser or to simplification.
-/
namespace Xprs
namespace Spec

/-! ### Alphabet and parentheses -/

/-- The documented alphabet. -/
def alphabet (c : UInt8) : Prop :=
  letter c ∨ digit c ∨ space c ∨ c ∈ b!"._'(),+-*/^%!"

instance : DecidablePred alphabet := fun _ => inferInstanceAs (Decidable (_ ∨ _))

/-- Opening minus closing parentheses. -/
def depth (l : Bytes) : Int := (l.count c!"(" : Int) - (l.count c!")" : Int)

/-- Balanced parentheses: as many closing as opening ones, and no prefix closes more
than it opened. -/
def Balanced (l : Bytes) : Prop := depth l = 0 ∧ ∀ p, p <+: l → 0 ≤ depth p

/-! ### The grammar without precedences -/

/-- A number literal: digits with underscores and at most one point, and an optional
exponent. -/
def Number (txt : Bytes) : Prop := ∃ v, Literal txt [] v

/-- A name. -/
def IsName (nm : Bytes) : Prop := (∃ c, nm.head? = some c ∧ letter c) ∧ ∀ c ∈ nm, nameChar c

mutual
/-- `Doc ctx t`: the text is an expression. -/
inductive Doc (ctx : Context) : Bytes → Prop
  | num {t : Bytes} : Number t → Doc ctx t
  /-- a variable or a constant -/
  | name {t : Bytes} : IsName t → (∀ f, lookup ctx t ≠ .func f) → Doc ctx t
  /-- a call of a known function with the declared number of arguments -/
  | call {t ws as : Bytes} {f : Func} {k : Nat} : IsName t → lookup ctx t = .func f →
      spaces ws → DocArgs ctx as k → (∀ n, f.nbArgs = some n → k = n) →
      Doc ctx (t ++ ws ++ c!"(" :: as ++ [c!")"])
  | paren {t : Bytes} : Doc ctx t → Doc ctx (c!"(" :: t ++ [c!")"])
  | pos {t : Bytes} : Doc ctx t → Doc ctx (c!"+" :: t)
  | neg {t : Bytes} : Doc ctx t → Doc ctx (c!"-" :: t)
  | fact {t : Bytes} : Doc ctx t → Doc ctx (t ++ [c!"!"])
  /-- one of the documented binary operators -/
  | bin {t u : Bytes} {o : UInt8} : Doc ctx t → o ∈ b!"+-*/^%" → Doc ctx u →
      Doc ctx (t ++ o :: u)
  /-- implicit multiplication -/
  | juxt {t u : Bytes} {c : UInt8} : Doc ctx t → Doc ctx u →
      firstTok u = some c → (lower c ∨ c = c!"(" ∨ digit c) → Doc ctx (t ++ u)
  | before {ws t : Bytes} : spaces ws → Doc ctx t → Doc ctx (ws ++ t)
  | after {ws t : Bytes} : spaces ws → Doc ctx t → Doc ctx (t ++ ws)
/-- `DocArgs ctx t k`: `k > 0` expressions separated by commas. -/
inductive DocArgs (ctx : Context) : Bytes → Nat → Prop
  | last {t : Bytes} : Doc ctx t → DocArgs ctx t 1
  | more {t u : Bytes} {k : Nat} : Doc ctx t → DocArgs ctx u k →
      DocArgs ctx (t ++ c!"," :: u) (k + 1)
end

/-! ### Written-out trees -/

mutual
/-- The expression tree a written-out tree stands for: parentheses and spaces mean
nothing, implicit multiplication is multiplication. -/
def Cst.tree (ctx : Context) : Cst → Elem
  | .num _ _ v => .num v
  | .name _ nm =>
    match lookup ctx nm with
    | .const x => .num x
    | _ => .var nm
  | .call _ nm _ as =>
    match lookup ctx nm with
    | .func f => .call f (as.trees ctx)
    | _ => .var nm
  | .paren _ x _ => x.tree ctx
  | .sign _ neg x => .un (if neg then .minus else .plus) (x.tree ctx)
  | .fact x _ => .un .factorial (x.tree ctx)
  | .bin l _ op r => .bin op (l.tree ctx) (r.tree ctx)
  | .juxt l r => .bin .times (l.tree ctx) (r.tree ctx)
def CArgs.trees (ctx : Context) : CArgs → List Elem
  | .last x _ => [x.tree ctx]
  | .more x _ as => x.tree ctx :: as.trees ctx
end

/-- The level of the outermost operator (7 if there is none). -/
def Cst.top (cfg : Cfg) : Cst → Nat
  | .bin _ _ op _ => level op
  | .juxt _ _ => implLevel cfg
  | _ => 7

/-- The lowest level of an operator or sign whose operand ends where the text ends: an
operator of a higher level written behind the text would be taken by that operand. -/
def Cst.edge (cfg : Cfg) : Cst → Nat
  | .sign _ _ x => min signLevel (x.edge cfg)
  | .bin _ _ op r => min (level op) (r.edge cfg)
  | .juxt _ r => min (implLevel cfg) (r.edge cfg)
  | _ => 7

/-- The last token is a name. -/
def Cst.endsName : Cst → Bool
  | .name .. => true
  | .sign _ _ x => x.endsName
  | .bin _ _ _ r => r.endsName
  | .juxt _ r => r.endsName
  | _ => false

/-- The last token is a number. -/
def Cst.endsNum : Cst → Bool
  | .num .. => true
  | .sign _ _ x => x.endsNum
  | .bin _ _ _ r => r.endsNum
  | .juxt _ r => r.endsNum
  | _ => false

/-- The text does not read like the exponent of a number in front of it, whatever comes
after it. -/
def notExp (t : Bytes) : Prop :=
  ∀ c t', t = c :: t' → (c = c!"e" ∨ c = c!"E") →
    ∃ d t'', t' = d :: t'' ∧ ¬ digit d ∧ d ≠ c!"+" ∧ d ≠ c!"-"

mutual
/-- The tree is written out legally: an operand is put in parentheses unless its
outermost operator binds tighter (or, on the left, as tight), `!` follows a number, a
name, a call or a parenthesis, and names and numbers are not glued together. -/
def Cst.good (cfg : Cfg) (ctx : Context) : Cst → Prop
  | .num ws txt v => spaces ws ∧ Literal txt [] v
  | .name ws nm => spaces ws ∧ IsName nm ∧ ∀ f, lookup ctx nm ≠ .func f
  | .call ws nm ws2 as =>
    spaces ws ∧ IsName nm ∧ spaces ws2 ∧
    (∃ f, lookup ctx nm = .func f ∧ ∀ n, f.nbArgs = some n → as.count = n) ∧ as.good cfg ctx
  | .paren ws x ws2 => spaces ws ∧ spaces ws2 ∧ x.good cfg ctx
  | .sign ws _ x => spaces ws ∧ x.good cfg ctx ∧ signLevel < x.top cfg
  | .fact x ws => x.primary ∧ spaces ws ∧ x.good cfg ctx
  | .bin l ws op r =>
    op ≠ .factorial ∧ spaces ws ∧ l.good cfg ctx ∧ r.good cfg ctx ∧
    level op ≤ l.edge cfg ∧ level op < r.top cfg
  | .juxt l r =>
    l.good cfg ctx ∧ r.good cfg ctx ∧ implLevel cfg ≤ l.edge cfg ∧ implLevel cfg < r.top cfg ∧
    (∃ c, firstTok r.text = some c ∧ (lower c ∨ c = c!"(")) ∧
    (l.endsName = true → notHead nameChar r.text) ∧ (l.endsNum = true → notExp r.text)
def CArgs.good (cfg : Cfg) (ctx : Context) : CArgs → Prop
  | .last x ws => spaces ws ∧ x.good cfg ctx
  | .more x ws as => spaces ws ∧ x.good cfg ctx ∧ as.good cfg ctx
end

/-- The trees that can be written down: literals are not negative and not NaN (but a
named constant can be anything), names of variables mean nothing else, functions have a
name, and operators and numbers of arguments are the documented ones. -/
inductive Sayable (ctx : Context) : Elem → Prop
  | lit {n : Nat} {h : Rep n} : Sayable ctx (.num (.fin false n h))
  | inf : Sayable ctx (.num (.inf false))
  | const {nm : Bytes} {x : F64} : IsName nm → lookup ctx nm = .const x → Sayable ctx (.num x)
  | var {nm : Bytes} : IsName nm → (∀ f, lookup ctx nm ≠ .func f) → (∀ x, lookup ctx nm ≠ .const x) →
      Sayable ctx (.var nm)
  | bin {op l r} : op ≠ .factorial → Sayable ctx l → Sayable ctx r → Sayable ctx (.bin op l r)
  | un {op e} : op = .plus ∨ op = .minus ∨ op = .factorial → Sayable ctx e → Sayable ctx (.un op e)
  | call {nm : Bytes} {f : Func} {args : List Elem} : IsName nm → lookup ctx nm = .func f →
      0 < args.length → (∀ n, f.nbArgs = some n → args.length = n) →
      (∀ a ∈ args, Sayable ctx a) → Sayable ctx (.call f args)

/-! ### Implicit multiplication -/

mutual
/-- `y` is `x` with some of its implicit multiplications written as `*` (with any
whitespace in front of it). -/
inductive Expl : Cst → Cst → Prop
  | refl {x} : Expl x x
  | juxtStar {l l' r r' ws} : spaces ws → Expl l l' → Expl r r' →
      Expl (.juxt l r) (.bin l' ws .times r')
  | juxt {l l' r r'} : Expl l l' → Expl r r' → Expl (.juxt l r) (.juxt l' r')
  | bin {l l' ws op r r'} : Expl l l' → Expl r r' → Expl (.bin l ws op r) (.bin l' ws op r')
  | paren {ws x x' ws2} : Expl x x' → Expl (.paren ws x ws2) (.paren ws x' ws2)
  | sign {ws neg x x'} : Expl x x' → Expl (.sign ws neg x) (.sign ws neg x')
  | fact {x x' ws} : Expl x x' → Expl (.fact x ws) (.fact x' ws)
  | call {ws nm ws2 as as'} : ExplArgs as as' → Expl (.call ws nm ws2 as) (.call ws nm ws2 as')
inductive ExplArgs : CArgs → CArgs → Prop
  | last {x x' ws} : Expl x x' → ExplArgs (.last x ws) (.last x' ws)
  | more {x x' ws as as'} : Expl x x' → ExplArgs as as' → ExplArgs (.more x ws as) (.more x' ws as')
end

/-! ### Simplification anywhere in a tree -/

mutual
/-- `e'` results from `e` by simplifying sub-trees, in any order and any number of
times. -/
inductive Rewrites (cfg : Cfg) (w : World) : Elem → Elem → Prop
  | refl {e} : Rewrites cfg w e e
  | trans {a b c} : Rewrites cfg w a b → Rewrites cfg w b c → Rewrites cfg w a c
  | simp {e e'} : simplify cfg w e = .ok e' → Rewrites cfg w e e'
  | bin {op l l' r r'} : Rewrites cfg w l l' → Rewrites cfg w r r' →
      Rewrites cfg w (.bin op l r) (.bin op l' r')
  | un {op e e'} : Rewrites cfg w e e' → Rewrites cfg w (.un op e) (.un op e')
  | call {f as bs} : RewritesL cfg w as bs → Rewrites cfg w (.call f as) (.call f bs)
/-- `Rewrites` for lists, element by element. -/
inductive RewritesL (cfg : Cfg) (w : World) : List Elem → List Elem → Prop
  | nil : RewritesL cfg w [] []
  | cons {a b as bs} : Rewrites cfg w a b → RewritesL cfg w as bs →
      RewritesL cfg w (a :: as) (b :: bs)
end

/-! ### Tokens -/

/-- `Lex t ts`: the text is the sequence `ts` of tokens, each a whole number literal, a
whole name or a single symbol, with any whitespace between them. -/
inductive Lex : Bytes → List Bytes → Prop
  | nil {ws : Bytes} : spaces ws → Lex ws []
  | num {ws txt rest : Bytes} {v : F64} {ts : List Bytes} : spaces ws → Literal txt rest v →
      Lex rest ts → Lex (ws ++ txt ++ rest) (txt :: ts)
  | name {ws nm rest : Bytes} {ts : List Bytes} : spaces ws → Name nm rest →
      Lex rest ts → Lex (ws ++ nm ++ rest) (nm :: ts)
  | sym {ws rest : Bytes} {c : UInt8} {ts : List Bytes} : spaces ws → c ∈ b!"(),+-*/^%!" →
      Lex rest ts → Lex (ws ++ c :: rest) ([c] :: ts)

end Spec
end Xprs
