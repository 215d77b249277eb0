import Verif.HeapParser
import Verif.Lemmas.Heap
/-
Parsing with boxes: without the addresses it is the parser, and it neither loses a box nor
frees it twice.
-/
namespace Xprs

/-- The result without addresses. -/
def R.mapE {α β : Type} (g : α → β) : R α → R β
  | .ok a s => .ok (g a) s
  | .err e s => .err e s
  | .panic p => .panic p
  | .fuel => .fuel

/-- The boxes of the result. -/
def R.outs {α : Type} (bx : α → List Res) : R α → List Res
  | .ok a _ => bx a
  | _ => []

/-- `x` does what `y` says, and what went in or was allocated was freed or came out. -/
structure Settles {α β : Type} (er : α → β) (bx : α → List Res) (m : Mem) (ins : List Res) (x : R α × Mem)
    (y : R β) : Prop where
  same : x.1.mapE er = y
  cons : Conserves m ins (x.1.outs bx) x.2

theorem Settles.perm {α β : Type} {er : α → β} {bx : α → List Res} {m : Mem} {i i' : List Res} {x : R α × Mem}
    {y : R β} (h : Settles er bx m i x y) (hi : ∀ a, i.count a = i'.count a) : Settles er bx m i' x y :=
  ⟨h.same, h.cons.perm hi⟩

/-- Something first that only takes from the memory. -/
theorem Settles.before {α β : Type} {er : α → β} {bx : α → List Res} {m m1 : Mem} {o i : List Res}
    {x : R α × Mem} {y : R β} (h1 : Conserves m [] o m1) (h : Settles er bx m1 i x y)
    (hi : ∀ a, i.count a = o.count a) : Settles er bx m [] x y :=
  ⟨h.same, h1.trans (k := []) h.cons fun a => by rw [hi a]; simp⟩

theorem tidy_then {α β γ δ : Type} {er : α → β} {bx : α → List Res} {er2 : γ → δ} {bx2 : γ → List Res} {m : Mem}
    {i k : List Res} {x : R α × Mem} {y : R β} {clean : Mem → Mem} {f : α → St → Mem → R γ × Mem}
    {g : β → St → R δ} (h : Settles er bx m i x y) (hc : ∀ m, Conserves m k [] (clean m))
    (hf : ∀ a s m1, Settles er2 bx2 m1 (bx a ++ k) (f a s m1) (g (er a) s)) :
    Settles er2 bx2 m (i ++ k) (R.thenH x clean f) (y.bind g) := by
  obtain ⟨h1, h2⟩ := h
  subst h1
  obtain ⟨x, m1⟩ := x
  cases x with
  | ok a s =>
    obtain ⟨h3, h4⟩ := hf a s m1
    exact ⟨h3, h2.trans h4 (fun c => List.count_append)⟩
  | err e s => exact ⟨rfl, h2.trans (hc m1) (fun c => by simp [R.outs])⟩
  | panic p => exact ⟨rfl, h2.trans (hc m1) (fun c => by simp [R.outs])⟩
  | fuel => exact ⟨rfl, h2.trans (hc m1) (fun c => by simp [R.outs])⟩

theorem id_cons (m : Mem) : Conserves m [] [] (id m) := refl_cons m []

/-- `tidy_then` when nothing is held. -/
theorem tidy_next {α β γ δ : Type} {er : α → β} {bx : α → List Res} {er2 : γ → δ} {bx2 : γ → List Res} {m : Mem}
    {i : List Res} {x : R α × Mem} {y : R β} {f : α → St → Mem → R γ × Mem}
    {g : β → St → R δ} (h : Settles er bx m i x y)
    (hf : ∀ a s m1, Settles er2 bx2 m1 (bx a) (f a s m1) (g (er a) s)) :
    Settles er2 bx2 m i (R.thenH x id f) (y.bind g) :=
  (tidy_then h id_cons fun a s m1 => (hf a s m1).perm fun c => by simp).perm fun c => by simp

theorem ofRun_tidy {m : Mem} {i : List Res} {x : Run HElem} {y : PM Elem} (s : St)
    (h1 : eraseR x = y) (h2 : Conserves m i (outs x.1) x.2) {z : R Elem}
    (h3 : z = match (generalizing := false) y with | .ok e => .ok e s | .error p => .panic p) :
    Settles HElem.erase HElem.owns m i (R.ofRun x s) z := by
  subst h3 h1
  obtain ⟨x | x, m1⟩ := x <;> exact ⟨rfl, h2⟩

/-- A result without boxes; what was held is dropped. -/
theorem tidy_fail {α β : Type} {er : α → β} {bx : α → List Res} {m m1 : Mem} {i : List Res} {x : R α} {y : R β}
    (h : x.mapE er = y) (ho : x.outs bx = []) (hc : Conserves m i [] m1) : Settles er bx m i (x, m1) y :=
  ⟨h, by rw [ho]; exact hc⟩

theorem errEnd_map {α β : Type} (g : α → β) (bx : α → List Res) (cfg : Cfg) (s : St) :
    (errEnd cfg s : R α).mapE g = errEnd cfg s ∧ (errEnd cfg s : R α).outs bx = [] := by
  unfold errEnd; cases subOne cfg s.pos <;> exact ⟨rfl, rfl⟩

theorem errMissing_map {α β : Type} (g : α → β) (bx : α → List Res) (cfg : Cfg) (s : St) :
    (errMissing cfg s : R α).mapE g = errMissing cfg s ∧ (errMissing cfg s : R α).outs bx = [] := by
  unfold errMissing; cases subOne cfg s.pos <;> exact ⟨rfl, rfl⟩

theorem eraseL_append (as bs : List HElem) : eraseL (as ++ bs) = eraseL as ++ eraseL bs := by
  induction as with
  | nil => rfl
  | cons a as ih => simp only [List.cons_append, eraseL, ih]

theorem ownsL_append (as bs : List HElem) : ownsL (as ++ bs) = ownsL as ++ ownsL bs := by
  induction as with
  | nil => rfl
  | cons a as ih => simp only [List.cons_append, ownsL, ih, List.append_assoc]

theorem assertConsume_tidy (c : UInt8) (s : St) (m : Mem) :
    Settles (α := Unit) (β := Unit) id (fun _ => []) m [] (assertConsume c s, m) (assertConsume c s) := by
  unfold assertConsume
  split <;> exact ⟨rfl, refl_cons m []⟩

section
variable {cfg : Cfg} {w : World} {ctx : Context} {recH : Nat → St → Mem → R HElem × Mem} {rec : Nat → St → R Elem}

/-- What is known of the recursive call. -/
def RecSettles (recH : Nat → St → Mem → R HElem × Mem) (rec : Nat → St → R Elem) : Prop :=
  ∀ p s m, Settles HElem.erase HElem.owns m [] (recH p s m) (rec p s)

theorem argumentH_tidy (hr : RecSettles recH rec) (s : St) (m : Mem) :
    Settles HElem.erase HElem.owns m [] (argumentH cfg recH s m) (argument cfg rec s) := by
  have h := hr noPrec s m
  unfold argumentH argument
  generalize recH noPrec s m = x at h ⊢
  obtain ⟨h1, h2⟩ := h
  rw [← h1]
  rcases x with ⟨_ | ⟨e, s'⟩ | _ | _, m1⟩
  · exact ⟨rfl, h2⟩
  · simp only [R.mapE]
    obtain ⟨h3, h4⟩ := errMissing_map HElem.erase HElem.owns cfg s'
    cases e.kind with
    | unexpectedToken _ => exact tidy_fail h3 h4 h2
    | _ => exact ⟨rfl, h2⟩
  · exact ⟨rfl, h2⟩
  · exact ⟨rfl, h2⟩

theorem parseArgsH_tidy (hr : RecSettles recH rec) : ∀ (fuel : Nat) (args : List HElem) (s : St) (m : Mem),
    Settles eraseL ownsL m (ownsL args) (parseArgsH cfg recH fuel args s m) (parseArgs cfg rec fuel (eraseL args) s)
  | 0, args, s, m => tidy_fail rfl rfl (dropL_cons m args)
  | fuel + 1, args, s, m => by
    rw [parseArgsH, parseArgs]
    refine (tidy_then (argumentH_tidy hr s m) (fun m => dropL_cons m args) (k := ownsL args) ?_).perm
      fun c => by simp
    intro arg s1 m1
    have hb : ∀ c, (ownsL (args ++ [arg])).count c = (arg.owns ++ ownsL args).count c := fun c => by
      rw [ownsL_append]; simp only [ownsL, List.count_append, List.count_nil]; omega
    have he : eraseL (args ++ [arg]) = eraseL args ++ [arg.erase] := eraseL_append args [arg]
    simp only
    cases (trim s1).rest.head? with
    | some c =>
      simp only
      by_cases h1 : c = c!","
      · rw [if_pos h1, if_pos h1, ← he]
        exact (parseArgsH_tidy hr fuel (args ++ [arg]) _ m1).perm hb
      rw [if_neg h1, if_neg h1]
      by_cases h2 : c = c!")"
      · rw [if_pos h2, if_pos h2, ← he]
        exact (Settles.mk rfl (refl_cons m1 _)).perm hb
      · rw [if_neg h2, if_neg h2]
        exact (tidy_fail (x := errTok (trim s1) c) rfl rfl (dropL_cons m1 _)).perm hb
    | none =>
      obtain ⟨h3, h4⟩ := errEnd_map eraseL ownsL cfg (trim s1)
      exact (tidy_fail h3 h4 (dropL_cons m1 _)).perm hb

theorem newCall_tidy (m : Mem) (f : Func) (args : List HElem) (s : St) :
    Settles HElem.erase HElem.owns m (f.arcs.map .arc ++ ownsL args) (R.ofRun (newCall m f args) s) (.ok (.call f (eraseL args)) s) :=
  ofRun_tidy (y := .ok (.call f (eraseL args))) s rfl (newCall_cons m f args) rfl

theorem newUn_tidy (m : Mem) (op : Op) (e : HElem) (s : St) :
    Settles HElem.erase HElem.owns m e.owns (R.ofRun (newUn m op e) s) (.ok (.un op e.erase) s) :=
  ofRun_tidy (y := .ok (.un op e.erase)) s rfl (newUn_cons m op e) rfl

theorem newBin_tidy (m : Mem) (op : Op) (l r : HElem) (s : St) :
    Settles HElem.erase HElem.owns m (l.owns ++ r.owns) (R.ofRun (newBin m op l r) s)
      (.ok (.bin op l.erase r.erase) s) :=
  ofRun_tidy (y := .ok (.bin op l.erase r.erase)) s rfl (newBin_cons m op l r) rfl

theorem dropCall_cons (f : Func) (args : List HElem) (m : Mem) :
    Conserves m (f.arcs.map .arc ++ ownsL args) [] ((m.dropL args).release f) :=
  ((dropL_cons m args).trans (k := f.arcs.map .arc) (release_cons (m.dropL args) f) (by simp)).perm
    fun c => by simp only [List.count_append]; omega

theorem checkArityH_tidy (f : Func) (args : List HElem) (start : Nat) (s : St) (m : Mem) :
    Settles HElem.erase HElem.owns m (f.arcs.map .arc ++ ownsL args) (checkArityH f args start s m)
      (checkArity f (eraseL args) start s) := by
  unfold checkArityH checkArity
  rw [eraseL_length]
  cases f.nbArgs with
  | none => exact newCall_tidy ..
  | some n =>
    simp only
    by_cases h1 : args.length = n
    · rw [if_pos h1, if_pos h1]; exact newCall_tidy ..
    rw [if_neg h1, if_neg h1]
    by_cases h2 : args.length < n
    · rw [if_pos h2, if_pos h2]
      exact tidy_fail (x := errTooFew s n args.length start) rfl rfl (dropCall_cons f args m)
    · rw [if_neg h2, if_neg h2]
      exact tidy_fail (x := errTooMany s n args.length start) rfl rfl (dropCall_cons f args m)

theorem parseIdentH_tidy (hr : RecSettles recH rec) (s : St) (m : Mem) :
    Settles HElem.erase HElem.owns m [] (parseIdentH cfg ctx recH s m) (parseIdent cfg ctx rec s) := by
  unfold parseIdentH parseIdent
  simp only
  cases lookup ctx (s.rest.takeWhile isIdChar) with
  | const x => exact ⟨rfl, refl_cons m []⟩
  | var n => exact ⟨rfl, refl_cons m []⟩
  | func f =>
    simp only
    cases (consumeIf c!"(" (skipWhile isIdChar s)).1 with
    | true =>
      have h1 := parseArgsH_tidy (cfg := cfg) hr ((consumeIf c!"(" (skipWhile isIdChar s)).2.rest.length + 1) []
        (consumeIf c!"(" (skipWhile isIdChar s)).2 (m.share f)
      refine (Settles.before (share_cons m f) (tidy_then h1 (fun m => release_cons m f)
        (k := f.arcs.map .arc) ?_) (fun c => rfl))
      intro args s3 m3
      refine (tidy_then (assertConsume_tidy c!")" s3 m3) (fun m => dropCall_cons f args m)
        (k := f.arcs.map .arc ++ ownsL args) ?_).perm fun c => by simp only [List.count_append, List.count_nil]; omega
      intro _ s4 m4
      exact checkArityH_tidy _ args _ s4 m4
    | false =>
      exact ⟨rfl, (share_cons m f).trans (k := []) (release_cons _ f) (by simp)⟩

theorem parseNumberH_same (s : St) : (parseNumberH s).mapE HElem.erase = parseNumber s ∧
    (parseNumberH s).outs HElem.owns = [] := by
  unfold parseNumberH parseNumber
  simp only
  cases parseF64 ((s.rest.take ((numEnd s).pos - s.pos)).filter (· ≠ c!"_")) <;> exact ⟨rfl, rfl⟩

theorem atomH_tidy (hr : RecSettles recH rec) (s0 : St) (m : Mem) :
    Settles HElem.erase HElem.owns m [] (atomH cfg ctx recH s0 m) (atom cfg ctx rec s0) := by
  unfold atomH atom
  simp only
  cases (trim s0).rest.head? with
  | none =>
    obtain ⟨h3, h4⟩ := errEnd_map HElem.erase HElem.owns cfg (trim s0)
    exact tidy_fail h3 h4 (refl_cons m [])
  | some c =>
    simp only
    cases isDigit c || decide (c = c!".") with
    | true => exact tidy_fail (parseNumberH_same _).1 (parseNumberH_same _).2 (refl_cons m [])
    | false =>
    cases isIdStart c with
    | true => exact parseIdentH_tidy hr _ m
    | false =>
    simp only [Bool.false_eq_true, ↓reduceIte]
    by_cases h1 : c = c!"+"
    · rw [if_pos h1, if_pos h1]
      exact tidy_next (hr _ _ m) fun e s' m' => newUn_tidy m' .plus e s'
    rw [if_neg h1, if_neg h1]
    by_cases h2 : c = c!"-"
    · rw [if_pos h2, if_pos h2]
      exact tidy_next (hr _ _ m) fun e s' m' => newUn_tidy m' .minus e s'
    rw [if_neg h2, if_neg h2]
    by_cases h3 : c = c!"("
    · rw [if_pos h3, if_pos h3]
      refine tidy_next (hr _ _ m) fun e s' m' => ?_
      refine (tidy_then (assertConsume_tidy c!")" s' m') (fun m => drop_cons m e) (k := e.owns) ?_).perm
        fun c => by simp
      intro _ s'' m''
      exact ⟨rfl, refl_cons m'' _⟩
    rw [if_neg h3, if_neg h3]
    by_cases h4 : c = c!")"
    · rw [if_pos h4, if_pos h4]
      exact tidy_fail (x := errTok (trim s0) c) rfl rfl (refl_cons m [])
    · rw [if_neg h4, if_neg h4]
      exact tidy_fail (x := errIllegal (trim s0) c) rfl rfl (refl_cons m [])

theorem opLoopH_tidy (hr : RecSettles recH rec) (p : Nat) : ∀ (fuel : Nat) (el : HElem) (s : St) (m : Mem),
    Settles HElem.erase HElem.owns m el.owns (opLoopH cfg recH p fuel el s m) (opLoop cfg rec p fuel el.erase s)
  | 0, el, s, m => tidy_fail rfl rfl (drop_cons m el)
  | fuel + 1, el, s, m => by
    rw [opLoopH, opLoop]
    rcases opInfo cfg el.erase p (trim s) with _ | ⟨op, q, k⟩
    · exact ⟨rfl, refl_cons m _⟩
    · refine (tidy_then (hr _ _ m) (fun m => drop_cons m el) (k := el.owns) ?_).perm fun c => by simp
      intro rhs s2 m2
      have h1 := tidy_next (f := fun el' s3 m3 => opLoopH cfg recH p fuel el' s3 m3)
        (newBin_tidy m2 op el rhs s2) fun el' s3 m3 => opLoopH_tidy hr p fuel el' s3 m3
      refine Settles.perm (Settles.mk h1.same h1.cons) fun c => ?_
      simp only [List.count_append]; omega

theorem finishH_tidy (el : HElem) (s : St) (m : Mem) :
    Settles HElem.erase HElem.owns m el.owns (finishH cfg w el s m) (finish cfg w el.erase s) := by
  unfold finishH finish
  cases cfg.opt with
  | true =>
    refine ofRun_tidy s (simplifyH_erase cfg w el m) (simplifyH_cons cfg w el m) ?_
    rw [if_pos rfl]; cases simplify cfg w el.erase <;> rfl
  | false => exact ⟨rfl, refl_cons m _⟩

theorem bangH_tidy (b : Bool) (m : Mem) (a : HElem) (s : St) :
    Settles HElem.erase HElem.owns m a.owns (R.ofRun (bangH b m a) s)
      (.ok (if b then .un .factorial a.erase else a.erase) s) := by
  cases b
  · exact ⟨rfl, refl_cons m _⟩
  · exact newUn_tidy m .factorial a s

theorem elementFH_tidy (hr : RecSettles recH rec) (p : Nat) (s : St) (m : Mem) :
    Settles HElem.erase HElem.owns m [] (elementFH cfg w ctx recH p s m) (elementF cfg w ctx rec p s) := by
  unfold elementFH elementF
  refine tidy_next (atomH_tidy hr s m) fun a s1 m1 => ?_
  exact tidy_next (g := fun el s2 => (opLoop cfg rec p (s2.rest.length + 1) el s2).bind
      fun el' s3 => finish cfg w el' s3) (bangH_tidy _ m1 a _) fun el s2 m2 =>
    tidy_next (opLoopH_tidy hr p _ el s2 m2) fun el' s3 m3 => finishH_tidy el' s3 m3
end

theorem elementH_tidy (cfg : Cfg) (w : World) (ctx : Context) : ∀ n : Nat,
    RecSettles (elementH cfg w ctx n) (element cfg w ctx n)
  | 0 => fun _ _ m => ⟨rfl, refl_cons m []⟩
  | n + 1 => fun p s m => elementFH_tidy (elementH_tidy cfg w ctx n) p s m

/-- The boxes of the result. -/
def HRes.owns (r : HRes) : List Res := r.kept.flatMap fun x => x.root.owns

theorem parseImplH_tidy (cfg : Cfg) (w : World) (ctx : Context) (m : Mem) (input : Bytes) :
    (parseImplH cfg w ctx m input).1.erase = parseImpl cfg w ctx input ∧
    Conserves m [] (parseImplH cfg w ctx m input).1.owns (parseImplH cfg w ctx m input).2 := by
  have h := elementH_tidy cfg w ctx (input.length + 1) noPrec ⟨0, input⟩ m
  unfold parseImplH parseImpl
  generalize elementH cfg w ctx (input.length + 1) noPrec ⟨0, input⟩ m = x at h ⊢
  obtain ⟨h1, h2⟩ := h
  rw [← h1]
  rcases x with ⟨⟨root, s⟩ | ⟨e, s⟩ | p | _, m1⟩
  · simp only [R.mapE, R.outs] at h2 ⊢
    cases (trim s).rest.head? with
    | some c => exact ⟨rfl, (h2.trans (k := []) (drop_cons m1 root) (by simp)).perm (by simp)⟩
    | none => exact ⟨rfl, by simpa [HRes.owns, HRes.kept] using h2⟩
  · exact ⟨rfl, h2⟩
  · exact ⟨rfl, h2⟩
  · exact ⟨rfl, h2⟩

theorem parseH_tidy (cfg : Cfg) (w : World) (o : Oracle) (ctx : Context) (m : Mem) (input : Bytes) :
    (parseH cfg w o ctx m input).1.erase = parse cfg w o ctx input ∧
    Conserves m [] (parseH cfg w o ctx m input).1.owns (parseH cfg w o ctx m input).2 := by
  have h := parseImplH_tidy cfg w ctx m input
  unfold parseH parse
  generalize parseImplH cfg w ctx m input = y at h ⊢
  obtain ⟨h1, h2⟩ := h
  rw [← h1]
  rcases y with ⟨x | e | p | _, m1⟩
  · simp only [HRes.erase]
    cases ctx.getExpected with
    | none => exact ⟨rfl, h2⟩
    | some expected =>
      simp only
      rw [show x.erase.vars = x.vars from rfl]
      cases (diffVars o x.vars expected).head? with
      | none => exact ⟨rfl, h2⟩
      | some v =>
        have h3 : Conserves m1 x.root.owns [] (m1.dropX x) := drop_cons m1 x.root
        exact ⟨rfl, h2.trans (k := []) h3 (by simp [HRes.owns, HRes.kept])⟩
  · exact ⟨rfl, h2⟩
  · exact ⟨rfl, h2⟩
  · exact ⟨rfl, h2⟩

end Xprs
