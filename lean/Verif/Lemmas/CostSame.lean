import Verif.Cost
/-
Counting steps does not change the values.
-/
namespace Xprs

theorem tick_fst {α : Type} (n : Nat) (x : α × Nat) : (tick n x).1 = x.1 := rfl
theorem tick_snd {α : Type} (n : Nat) (x : α × Nat) : (tick n x).2 = n + x.2 := rfl

theorem andC_fst (x y : PM Bool × Nat) : (andC x y).1 = andM x.1 y.1 := by
  rcases x with ⟨_ | _ | _, n⟩ <;> rfl
theorem orC_fst (x y : PM Bool × Nat) : (orC x y).1 = orM x.1 y.1 := by
  rcases x with ⟨_ | _ | _, n⟩ <;> rfl

mutual
theorem eqC_fst : ∀ a b, (eqC a b).1 = eqE a b
  | .num a, b => by cases b <;> simp [eqC, eqE]
  | .var a, b => by cases b <;> simp [eqC, eqE]
  | .un o e, b => by
    cases b with
    | un o' e' =>
      rw [eqC, eqE, tick_fst]
      split
      · exact eqC_fst e e'
      · rfl
    | _ => simp [eqC, eqE]
  | .bin o l r, b => by
    cases b with
    | bin o' l' r' =>
      unfold eqC eqE
      rw [tick_fst]
      split
      · cases o <;> simp only [andC_fst, orC_fst, eqC_fst l l', eqC_fst r r', eqC_fst l r', eqC_fst r l']
      · rfl
    | _ => simp [eqC, eqE]
  | .call f as, b => by
    cases b with
    | call g bs =>
      rw [eqC, eqE, tick_fst]
      split
      · split
        · exact eqCL_fst as bs
        · rfl
      · rfl
    | _ => simp [eqC, eqE]
theorem eqCL_fst : ∀ as bs, (eqCL as bs).1 = eqEs as bs
  | [], bs => by simp [eqCL, eqEs]
  | a :: as, [] => by simp [eqCL, eqEs]
  | a :: as, b :: bs => by rw [eqCL, eqEs, andC_fst, eqC_fst a b, eqCL_fst as bs]
end

theorem armC_fst (g : Bool) (res : Elem) (rest : PM Elem × Nat) :
    (armC g res rest).1 = if g then .ok res else rest.1 := by cases g <;> rfl
theorem armC2_fst (g g' : Bool) (res : Elem) (rest : PM Elem × Nat) :
    (armC2 g g' res rest).1 = if g && g' then .ok res else rest.1 := by cases g <;> cases g' <;> rfl
theorem guardC_fst (a b res : Elem) (rest : PM Elem × Nat) :
    (guardC a b res rest).1 = guardEq a b res rest.1 := by
  rw [guardC, guardEq, ← eqC_fst]
  rcases eqC a b with ⟨_ | _ | _, n⟩ <;> rfl

theorem simpBinC_fst (cfg : Cfg) (w : World) (op : Op) (l r : Elem) :
    (simpBinC cfg w op l r).1 = simpBin cfg w op l r := by
  cases op
  · simp only [simpBinC, simpBin, simpPlusC, simpPlus, armC_fst]
    cases cfg.nightly <;> cases l.negOf? <;> cases r.negOf? <;> simp only [guardC_fst, foldC]
  · simp only [simpBinC, simpBin, simpMinusC, simpMinus, armC_fst, guardC_fst]
    cases cfg.nightly <;> cases r.negOf? <;> rfl
  · simp only [simpBinC, simpBin, simpTimesC, simpTimes, armC_fst]
    cases cfg.nightly <;> cases l.negOf? <;> cases r.negOf? <;> rfl
  · simp only [simpBinC, simpBin, simpDivideC, simpDivide, armC_fst, armC2_fst, guardC_fst]
    cases cfg.nightly <;> cases l.negOf? <;> cases r.negOf? <;> simp only [armC_fst, foldC]
  · simp only [simpBinC, simpBin, simpPowerC, simpPower, armC_fst, armC2_fst, foldC]
  · simp only [simpBinC, simpBin, simpModuloC, simpModulo, armC_fst, armC2_fst, guardC_fst, foldC]
  · rfl

mutual
theorem simplifyC_fst (cfg : Cfg) (w : World) : ∀ e, (simplifyC cfg w e).1 = simplify cfg w e
  | .num x => by rw [simplifyC, simplify]
  | .var x => by rw [simplifyC, simplify]
  | .bin op l r => by
    rw [simplifyC, simplify, tick_fst, ← simplifyC_fst cfg w l, ← simplifyC_fst cfg w r]
    rcases simplifyC cfg w l with ⟨_ | l', n⟩
    · rfl
    · rcases simplifyC cfg w r with ⟨_ | r', n'⟩
      · rfl
      · exact simpBinC_fst cfg w op l' r'
  | .un op e => by
    rw [simplifyC, simplify, tick_fst, ← simplifyC_fst cfg w e]
    rcases simplifyC cfg w e with ⟨_ | l', n⟩ <;> rfl
  | .call f args => by
    rw [simplifyC, simplify, tick_fst, ← simplifyCL_fst cfg w args]
    rcases simplifyCL cfg w args with ⟨_ | l', n⟩ <;> rfl
theorem simplifyCL_fst (cfg : Cfg) (w : World) : ∀ es, (simplifyCL cfg w es).1 = simplifyL cfg w es
  | [] => by rw [simplifyCL, simplifyL]
  | a :: as => by
    rw [simplifyCL, simplifyL, ← simplifyC_fst cfg w a, ← simplifyCL_fst cfg w as]
    rcases simplifyC cfg w a with ⟨_ | l', n⟩
    · rfl
    · rcases simplifyCL cfg w as with ⟨_ | r', n'⟩ <;> rfl
end

mutual
theorem simplifyForC_fst (cfg : Cfg) (w : World) (x : Bytes) (v : F64) :
    ∀ e, (simplifyForC cfg w x v e).1 = simplifyFor cfg w x v e
  | .num a => by rw [simplifyForC, simplifyFor]
  | .var a => by rw [simplifyForC, simplifyFor]; split <;> rfl
  | .bin op l r => by
    rw [simplifyForC, simplifyFor, tick_fst, ← simplifyForC_fst cfg w x v l, ← simplifyForC_fst cfg w x v r]
    rcases simplifyForC cfg w x v l with ⟨_ | l', n⟩
    · rfl
    · rcases simplifyForC cfg w x v r with ⟨_ | r', n'⟩
      · rfl
      · exact simplifyC_fst cfg w (.bin op l' r')
  | .un op e => by
    rw [simplifyForC, simplifyFor, tick_fst, ← simplifyForC_fst cfg w x v e]
    rcases simplifyForC cfg w x v e with ⟨_ | l', n⟩
    · rfl
    · exact simplifyC_fst cfg w (.un op l')
  | .call f args => by
    rw [simplifyForC, simplifyFor, tick_fst, ← simplifyForCL_fst cfg w x v args]
    rcases simplifyForCL cfg w x v args with ⟨_ | l', n⟩
    · rfl
    · exact simplifyC_fst cfg w (.call f l')
theorem simplifyForCL_fst (cfg : Cfg) (w : World) (x : Bytes) (v : F64) :
    ∀ es, (simplifyForCL cfg w x v es).1 = simplifyForL cfg w x v es
  | [] => by rw [simplifyForCL, simplifyForL]
  | a :: as => by
    rw [simplifyForCL, simplifyForL, ← simplifyForC_fst cfg w x v a, ← simplifyForCL_fst cfg w x v as]
    rcases simplifyForC cfg w x v a with ⟨_ | l', n⟩
    · rfl
    · rcases simplifyForCL cfg w x v as with ⟨_ | r', n'⟩ <;> rfl
end

mutual
theorem evalC_fst (w : World) (m : HMap F64) : ∀ e, (evalC w m e).1 = eval w m e
  | .num a => by rw [evalC, eval]
  | .var a => by rw [evalC, eval]; cases m.get a <;> rfl
  | .bin op l r => by
    rw [evalC, eval, tick_fst, ← evalC_fst w m l, ← evalC_fst w m r]
    rcases evalC w m l with ⟨_ | l', n⟩
    · rfl
    · rcases evalC w m r with ⟨_ | r', n'⟩ <;> rfl
  | .un op e => by
    rw [evalC, eval, tick_fst, ← evalC_fst w m e]
    rcases evalC w m e with ⟨_ | l', n⟩ <;> rfl
  | .call f args => by
    rw [evalC, eval, tick_fst, ← evalCL_fst w m args]
    rcases evalCL w m args with ⟨_ | l', n⟩ <;> rfl
theorem evalCL_fst (w : World) (m : HMap F64) : ∀ es, (evalCL w m es).1 = evalL w m es
  | [] => by rw [evalCL, evalL]
  | a :: as => by
    rw [evalCL, evalL, ← evalC_fst w m a, ← evalCL_fst w m as]
    rcases evalC w m a with ⟨_ | l', n⟩
    · rfl
    · rcases evalCL w m as with ⟨_ | r', n'⟩ <;> rfl
end

/-! ### The parser -/

theorem bindC_fst {α β : Type} (x : R α × Nat) (f : α → St → R β × Nat) :
    (R.bindC x f).1 = x.1.bind fun a s => (f a s).1 := by
  rcases x with ⟨⟨a, s⟩ | ⟨e, s⟩ | p | _, n⟩ <;> rfl

theorem assertConsumeC_fst (c : UInt8) (s : St) : (assertConsumeC c s).1 = assertConsume c s := by
  rw [assertConsumeC, assertConsume, tick_fst]
  split <;> rfl

theorem parseNumberC_fst (s : St) : (parseNumberC s).1 = parseNumber s := by
  rw [parseNumberC, parseNumber]
  simp only [tick_fst]
  cases parseF64 ((s.rest.take ((numEnd s).pos - s.pos)).filter (· ≠ c!"_")) <;> rfl

theorem checkArityC_fst (f : Func) (args : List Elem) (start : Nat) (s : St) :
    (checkArityC f args start s).1 = checkArity f args start s := by
  rw [checkArityC, checkArity]
  cases f.nbArgs with
  | some n =>
    dsimp only
    split
    · rfl
    · split <;> rfl
  | none => rfl

section
variable (cfg : Cfg) {recC : Nat → St → R Elem × Nat} {rec : Nat → St → R Elem}
  (hr : ∀ p s, (recC p s).1 = rec p s)
include hr

theorem argumentC_fst (s : St) : (argumentC cfg recC s).1 = argument cfg rec s := by
  rw [argumentC, argument, ← hr]
  rcases recC noPrec s with ⟨⟨a, s⟩ | ⟨e, s⟩ | p | _, n⟩
  · rfl
  · rcases e with ⟨k, _, _⟩
    cases k <;> rfl
  · rfl
  · rfl

theorem parseArgsC_fst : ∀ (fuel : Nat) (args : List Elem) (s : St),
    (parseArgsC cfg recC fuel args s).1 = parseArgs cfg rec fuel args s
  | 0, _, _ => rfl
  | fuel + 1, args, s => by
    rw [parseArgsC, parseArgs, bindC_fst, argumentC_fst cfg hr]
    congr 1
    funext arg s1
    simp only [tick_fst]
    cases (trim s1).rest.head? with
    | some c =>
      dsimp only
      split
      · exact parseArgsC_fst fuel _ _
      · split <;> rfl
    | none => rfl

theorem parseIdentC_fst (ctx : Context) (s : St) : (parseIdentC cfg ctx recC s).1 = parseIdent cfg ctx rec s := by
  rw [parseIdentC, parseIdent]
  simp only [tick_fst]
  cases lookup ctx (s.rest.takeWhile isIdChar) with
  | const => rfl
  | var => rfl
  | func f =>
    dsimp only
    rw [tick_fst]
    split
    · rw [bindC_fst, parseArgsC_fst cfg hr]
      congr 1
      funext args s3
      rw [bindC_fst, assertConsumeC_fst]
      congr 1
      funext _ s4
      exact checkArityC_fst _ _ _ _
    · rfl

theorem atomC_fst (ctx : Context) (s : St) : (atomC cfg ctx recC s).1 = atom cfg ctx rec s := by
  rw [atomC, atom]
  simp only [tick_fst]
  cases (trim s).rest.head? with
  | none => rfl
  | some c =>
    dsimp only
    split
    · exact parseNumberC_fst _
    split
    · exact parseIdentC_fst cfg hr ctx _
    split
    · rw [bindC_fst, hr]
    split
    · rw [bindC_fst, hr]
    split
    · rw [bindC_fst, hr]
      congr 1
      funext e s'
      rw [bindC_fst, assertConsumeC_fst]
    split <;> rfl

theorem opLoopC_fst (p : Nat) : ∀ (fuel : Nat) (el : Elem) (s : St),
    (opLoopC cfg recC p fuel el s).1 = opLoop cfg rec p fuel el s
  | 0, _, _ => rfl
  | fuel + 1, el, s => by
    rw [opLoopC, opLoop]
    simp only [tick_fst]
    rcases opInfo cfg el p (trim s) with _ | ⟨op, q, k⟩
    · rfl
    · dsimp only
      rw [bindC_fst, hr]
      congr 1
      funext rhs s2
      exact opLoopC_fst p fuel _ _

end

theorem finishC_fst (cfg : Cfg) (w : World) (el : Elem) (s : St) : (finishC cfg w el s).1 = finish cfg w el s := by
  rw [finishC, finish, ← simplifyC_fst]
  split
  · rcases simplifyC cfg w el with ⟨_ | l', n⟩ <;> rfl
  · rfl

theorem elementC_fst (cfg : Cfg) (w : World) (ctx : Context) : ∀ (n p : Nat) (s : St),
    (elementC cfg w ctx n p s).1 = element cfg w ctx n p s
  | 0, _, _ => rfl
  | n + 1, p, s => by
    rw [elementC, element, elementFC, elementF, tick_fst, bindC_fst, atomC_fst cfg (elementC_fst cfg w ctx n)]
    congr 1
    funext a s1
    simp only [tick_fst]
    rw [bindC_fst, opLoopC_fst cfg (elementC_fst cfg w ctx n)]
    congr 1
    funext el s3
    exact finishC_fst cfg w el s3

theorem parseImplC_fst (cfg : Cfg) (w : World) (ctx : Context) (input : Bytes) :
    (parseImplC cfg w ctx input).1 = parseImpl cfg w ctx input := by
  rw [parseImplC, parseImpl, ← elementC_fst]
  rcases elementC cfg w ctx (input.length + 1) noPrec ⟨0, input⟩ with ⟨⟨a, s⟩ | ⟨e, s⟩ | p | _, n⟩
  · dsimp only
    rw [tick_fst]
    cases (trim s).rest.head? <;> rfl
  · rfl
  · rfl
  · rfl

theorem parseC_fst (cfg : Cfg) (w : World) (o : Oracle) (ctx : Context) (input : Bytes) :
    (parseC cfg w o ctx input).1 = parse cfg w o ctx input := by
  rw [parseC, parse, ← parseImplC_fst]
  rcases parseImplC cfg w ctx input with ⟨x | e | p | _, n⟩
  · cases hc : ctx.getExpected with
    | none => simp only
    | some vs =>
      dsimp only
      cases (diffVars o x.vars vs).head? <;> rfl
  · rfl
  · rfl
  · rfl

end Xprs
