import Verif.Spec.Once
import Verif.Lemmas.Tree
/-
Safe code neither loses a box nor frees it twice.
-/
namespace Xprs
open Spec

/-- What went in was given back or came out, as did everything allocated or cloned on the way. -/
structure Conserves (m : Mem) (ins out : List Res) (m' : Mem) : Prop where
  eq : ∀ r, m'.freed.count r + out.count r + given m r = m.freed.count r + ins.count r + given m' r
  grow : ∀ r, given m r ≤ given m' r

/-- Sequencing; `k` is what is held meanwhile. -/
theorem Conserves.trans {m m1 m2 : Mem} {i o i2 o2 k : List Res} (h1 : Conserves m i o m1)
    (h2 : Conserves m1 i2 o2 m2) (hi : ∀ a, i2.count a = o.count a + k.count a) :
    Conserves m (i ++ k) o2 m2 := by
  refine ⟨fun a => ?_, fun a => Nat.le_trans (h1.grow a) (h2.grow a)⟩
  have e1 := h1.eq a
  have e2 := h2.eq a
  rw [List.count_append]
  rw [hi a] at e2
  omega

theorem Conserves.perm {m m' : Mem} {i i' o : List Res} (h : Conserves m i o m')
    (hi : ∀ a, i.count a = i'.count a) : Conserves m i' o m' :=
  ⟨fun a => by rw [← hi a]; exact h.eq a, h.grow⟩

/-- Only freeing. -/
theorem cons_freed {m m' : Mem} {i o : List Res} (h1 : m'.next = m.next) (h2 : m'.made = m.made)
    (h : ∀ r, m'.freed.count r + o.count r = m.freed.count r + i.count r) : Conserves m i o m' := by
  have : ∀ r, given m' r = given m r := by intro r; cases r <;> simp only [given, h1, h2]
  exact ⟨fun r => by rw [this, h r], fun r => Nat.le_of_eq (this r).symm⟩

/-- What is held does not change. -/
theorem Conserves.frame {m m' : Mem} {i o : List Res} (h : Conserves m i o m') (k : List Res) :
    Conserves m (i ++ k) (o ++ k) m' :=
  ⟨fun r => by have := h.eq r; simp only [List.count_append]; omega, h.grow⟩

/-- what a finished computation hands out -/
def outs : Except Panic HElem → List Res
  | .ok e => e.owns
  | .error _ => []
def outsL : Except Panic (List HElem) → List Res
  | .ok es => ownsL es
  | .error _ => []

theorem dropBoth_cons (m : Mem) (l r : HElem) (x : PM F64) :
    Conserves m (l.owns ++ r.owns) (outs (dropBoth m l r x).1) (dropBoth m l r x).2 := by
  refine cons_freed rfl rfl fun a => ?_
  have h1 : outs (dropBoth m l r x).1 = [] := by
    unfold dropBoth; cases x <;> rfl
  rw [h1]
  simp only [dropBoth, Mem.drop, List.count_append, List.count_nil]
  omega

theorem keepLeft_cons (m : Mem) (l r : HElem) :
    Conserves m (l.owns ++ r.owns) (outs (keepLeft m l r).1) (keepLeft m l r).2 := by
  refine cons_freed rfl rfl fun a => ?_
  simp only [keepLeft, Mem.drop, outs, List.count_append]
  omega

theorem keepRight_cons (m : Mem) (l r : HElem) :
    Conserves m (l.owns ++ r.owns) (outs (keepRight m l r).1) (keepRight m l r).2 := by
  refine cons_freed rfl rfl fun a => ?_
  simp only [keepRight, Mem.drop, outs, List.count_append]
  omega

theorem given_succ (m : Mem) (r : Res) :
    given { m with next := m.next + 1 } r = given m r + if Res.box m.next = r then 1 else 0 := by
  cases r with
  | box a => simp only [given, Res.box.injEq]; split <;> split <;> split <;> omega
  | arc p => simp only [given, reduceCtorEq, if_false]; omega

theorem given_mono (m : Mem) (r : Res) : given m r ≤ given { m with next := m.next + 1 } r := by
  rw [given_succ]; exact Nat.le_add_right ..

theorem given_box (m : Mem) (a : Nat) : given m (.box a) = if a < m.next then 1 else 0 := rfl
theorem given_arc (m : Mem) (p : Nat) : given m (.arc p) = m.made.count p := rfl

theorem newBin_cons (m : Mem) (op : Op) (l r : HElem) :
    Conserves m (l.owns ++ r.owns) (outs (newBin m op l r).1) (newBin m op l r).2 := by
  refine ⟨fun a => ?_, given_mono m⟩
  simp only [newBin, outs, HElem.owns, List.count_append, List.count_cons, given_succ, beq_iff_eq]
  omega

theorem newUn_cons (m : Mem) (op : Op) (e : HElem) :
    Conserves m e.owns (outs (newUn m op e).1) (newUn m op e).2 := by
  refine ⟨fun a => ?_, given_mono m⟩
  simp only [newUn, outs, HElem.owns, List.count_cons, given_succ, beq_iff_eq]
  omega

theorem newCall_cons (m : Mem) (f : Func) (args : List HElem) :
    Conserves m (f.arcs.map .arc ++ ownsL args) (outs (newCall m f args).1) (newCall m f args).2 := by
  refine ⟨fun a => ?_, given_mono m⟩
  simp only [newCall, outs, HElem.owns, List.count_append, List.count_cons, given_succ, beq_iff_eq]
  omega

theorem foldBinH_cons (w : World) (m : Mem) (op : Op) (l r : HElem) :
    Conserves m (l.owns ++ r.owns) (outs (foldBinH w m op l r).1) (foldBinH w m op l r).2 := by
  unfold foldBinH
  split
  · exact dropBoth_cons ..
  · exact newBin_cons ..

theorem guardH_cons {m : Mem} {l r : HElem} {a b : Elem} {x : F64} {rest : Run HElem}
    (h : Conserves m (l.owns ++ r.owns) (outs rest.1) rest.2) :
    Conserves m (l.owns ++ r.owns) (outs (guardH m l r a b x rest).1) (guardH m l r a b x rest).2 := by
  unfold guardH
  split
  · exact dropBoth_cons ..
  · exact dropBoth_cons ..
  · exact h

theorem negOf_boxes {e o : HElem} {a : Nat} (h : e.negOf? = some (a, o)) : e.owns = .box a :: o.owns := by
  unfold HElem.negOf? at h
  split at h
  · cases h; rfl
  · cases h

theorem free_cons (m : Mem) (a : Nat) : Conserves m [.box a] [] (m.free a) := by
  refine cons_freed rfl rfl fun b => ?_
  simp only [Mem.free, List.count_cons, List.count_nil]
  omega

theorem drop_cons (m : Mem) (e : HElem) : Conserves m e.owns [] (m.drop e) := by
  refine cons_freed rfl rfl fun b => ?_
  simp only [Mem.drop, List.count_append, List.count_nil]
  omega

theorem release_cons (m : Mem) (f : Func) : Conserves m (f.arcs.map .arc) [] (m.release f) := by
  refine cons_freed rfl rfl fun b => ?_
  simp only [Mem.release, List.count_append, List.count_nil]
  omega

theorem share_cons (m : Mem) (f : Func) : Conserves m [] (f.arcs.map .arc) (m.share f) := by
  unfold Mem.share Func.arcs
  constructor <;> intro r <;> cases r <;> cases f.func <;> simp [given, List.count_cons] <;> omega

theorem dropL_cons (m : Mem) (es : List HElem) : Conserves m (ownsL es) [] (m.dropL es) := by
  refine cons_freed rfl rfl fun b => ?_
  simp only [Mem.dropL, List.count_append, List.count_nil]
  omega

/-- the two-minus arms -/
theorem twoNeg_cons {m : Mem} {op : Op} {l r x y : HElem} {a b : Nat} (hl : l.negOf? = some (a, x))
    (hr : r.negOf? = some (b, y)) :
    Conserves m (l.owns ++ r.owns) (outs (newBin ((m.free a).free b) op x y).1)
      (newBin ((m.free a).free b) op x y).2 := by
  have h := ((free_cons m a).trans (k := [.box b]) (free_cons (m.free a) b) (by simp)).trans
    (k := x.owns ++ y.owns) (newBin_cons ((m.free a).free b) op x y) (by simp)
  refine h.perm fun c => ?_
  rw [negOf_boxes hl, negOf_boxes hr]
  simp only [List.count_append, List.count_cons, List.count_nil]
  omega

theorem oneNeg_cons {m : Mem} {op : Op} {l r y : HElem} {b : Nat} (hr : r.negOf? = some (b, y)) :
    Conserves m (l.owns ++ r.owns) (outs (newBin (m.free b) op l y).1)
      (newBin (m.free b) op l y).2 := by
  have h := (free_cons m b).trans (k := l.owns ++ y.owns) (newBin_cons (m.free b) op l y) (by simp)
  refine h.perm fun c => ?_
  rw [negOf_boxes hr]
  simp only [List.count_append, List.count_cons, List.count_nil]
  omega

theorem simpBinH_cons (cfg : Cfg) (w : World) (m : Mem) (op : Op) (l r : HElem) :
    Conserves m (l.owns ++ r.owns) (outs (simpBinH cfg w m op l r).1) (simpBinH cfg w m op l r).2 := by
  cases op with
  | plus =>
    show Conserves m _ (outs (simpPlusH cfg w m l r).1) (simpPlusH cfg w m l r).2
    unfold simpPlusH
    split
    · exact keepRight_cons ..
    split
    · exact keepLeft_cons ..
    simp only
    split <;> split <;> first | exact foldBinH_cons .. | (apply guardH_cons) <;>
      first | exact foldBinH_cons .. | (apply guardH_cons; exact foldBinH_cons ..)
  | minus =>
    show Conserves m _ (outs (simpMinusH cfg w m l r).1) (simpMinusH cfg w m l r).2
    unfold simpMinusH
    split
    · have h := (drop_cons m l).trans (k := r.owns) (newUn_cons (m.drop l) .minus r) (by simp)
      exact h
    split
    · exact keepLeft_cons ..
    apply guardH_cons
    split
    · rename_i h; exact oneNeg_cons h
    · exact foldBinH_cons ..
  | times =>
    show Conserves m _ (outs (simpTimesH cfg w m l r).1) (simpTimesH cfg w m l r).2
    unfold simpTimesH
    split
    · exact dropBoth_cons ..
    split
    · exact dropBoth_cons ..
    split
    · exact keepRight_cons ..
    split
    · exact keepLeft_cons ..
    split
    · rename_i h1 h2; exact twoNeg_cons h1 h2
    · exact foldBinH_cons ..
  | divide =>
    show Conserves m _ (outs (simpDivideH cfg w m l r).1) (simpDivideH cfg w m l r).2
    unfold simpDivideH
    split
    · exact dropBoth_cons ..
    split
    · exact dropBoth_cons ..
    split
    · exact dropBoth_cons ..
    split
    · exact keepLeft_cons ..
    apply guardH_cons
    split
    · rename_i h1 h2; exact twoNeg_cons h1 h2
    · exact foldBinH_cons ..
  | power =>
    show Conserves m _ (outs (simpPowerH w m l r).1) (simpPowerH w m l r).2
    unfold simpPowerH
    split
    · exact dropBoth_cons ..
    split
    · exact dropBoth_cons ..
    split
    · exact keepLeft_cons ..
    · exact foldBinH_cons ..
  | modulo =>
    show Conserves m _ (outs (simpModuloH w m l r).1) (simpModuloH w m l r).2
    unfold simpModuloH
    split
    · exact dropBoth_cons ..
    split
    · exact dropBoth_cons ..
    split
    · exact dropBoth_cons ..
    split
    · exact dropBoth_cons ..
    · exact guardH_cons (foldBinH_cons ..)
  | factorial => exact foldBinH_cons ..

theorem refl_cons (m : Mem) (l : List Res) : Conserves m l l m :=
  ⟨fun _ => rfl, fun _ => Nat.le_refl _⟩

theorem simpUnH_cons (m : Mem) (op : Op) (e : HElem) :
    Conserves m e.owns (outs (simpUnH m op e).1) (simpUnH m op e).2 := by
  have hnum : ∀ (x : F64) (p : PM F64), Conserves m (HElem.num x).owns (outs (p.map .num)) m := by
    intro x p
    cases p <;> exact refl_cons m []
  unfold simpUnH
  split
  · exact refl_cons m _
  · split
    · exact hnum _ _
    · exact newUn_cons ..
  · split
    · exact refl_cons m []
    · exact newUn_cons ..
  · exact drop_cons m e

theorem simpCallH_cons (w : World) (m : Mem) (f : Func) (args : List HElem) :
    Conserves m (f.arcs.map .arc ++ ownsL args) (outs (simpCallH w m f args).1) (simpCallH w m f args).2 := by
  unfold simpCallH
  split
  · have : outs ((callFn w f (numsOf (eraseL args))).map .num) = [] := by
      cases callFn w f (numsOf (eraseL args)) <;> rfl
    rw [this]
    exact ((dropL_cons m args).trans (k := f.arcs.map .arc) (release_cons (m.dropL args) f) (by simp)).perm
      (fun c => by simp only [List.count_append]; omega)
  · exact newCall_cons ..

/-- `count` of the parts -/
macro "counts" : tactic =>
  `(tactic| (intro c; simp only [HElem.owns, ownsL, List.count_append, List.count_cons, List.count_nil,
      List.nil_append, List.append_nil] <;> omega))

/-- The second half of a node: simplify both operands, then the node. -/
theorem bin_cons {cfg : Cfg} {w : World} {m : Mem} {op : Op} {l r : HElem}
    (hl : ∀ m, Conserves m l.owns (outs (simplifyH cfg w m l).1) (simplifyH cfg w m l).2)
    (hr : ∀ m, Conserves m r.owns (outs (simplifyH cfg w m r).1) (simplifyH cfg w m r).2) {R : Run HElem}
    (h : R = match simplifyH cfg w m l with
      | (.error p, m1) => (.error p, m1.drop r)
      | (.ok l', m1) =>
        match simplifyH cfg w m1 r with
        | (.error p, m2) => (.error p, m2.drop l')
        | (.ok r', m2) => simpBinH cfg w m2 op l' r') :
    Conserves m (l.owns ++ r.owns) (outs R.1) R.2 := by
  subst h
  have h1 := hl m
  rcases hs : simplifyH cfg w m l with ⟨_ | l', m1⟩ <;> rw [hs] at h1 <;> simp only [outs] at h1 ⊢
  · exact h1.trans (drop_cons m1 r) (by counts)
  · have h2 := hr m1
    rcases hs2 : simplifyH cfg w m1 r with ⟨_ | r', m2⟩ <;> rw [hs2] at h2 <;> simp only [outs] at h2 ⊢
    · have := h1.trans (k := r.owns) ((h2.trans (k := l'.owns) (drop_cons m2 l') (by counts))) (by counts)
      exact this
    · have := h2.trans (k := l'.owns) (simpBinH_cons cfg w m2 op l' r') (by counts)
      exact h1.trans (k := r.owns) this (by counts)

mutual
theorem simplifyH_cons (cfg : Cfg) (w : World) : ∀ (e : HElem) (m : Mem),
    Conserves m e.owns (outs (simplifyH cfg w m e).1) (simplifyH cfg w m e).2
  | .num x, m => by rw [simplifyH]; exact refl_cons m []
  | .var x, m => by rw [simplifyH]; exact refl_cons m []
  | .bin a op l r, m => by
    have := bin_cons (m := m.free a) (op := op) (simplifyH_cons cfg w l) (simplifyH_cons cfg w r) rfl
    rw [simplifyH]
    exact (free_cons m a).trans (k := l.owns ++ r.owns) this (by counts)
  | .un a op e, m => by
    rw [simplifyH]
    have h1 := (free_cons m a).trans (k := e.owns) (simplifyH_cons cfg w e (m.free a)) (by counts)
    rcases hs : simplifyH cfg w (m.free a) e with ⟨_ | e', m1⟩ <;> rw [hs] at h1 <;> simp only [outs] at h1 ⊢
    · exact h1
    · exact (h1.trans (k := []) (simpUnH_cons m1 op e') (by counts)).perm (by counts)
  | .call a f args, m => by
    rw [simplifyH]
    have h1 := (free_cons m a).trans (k := ownsL args) (simplifyHL_cons cfg w args (m.free a)) (by counts)
    rcases hs : simplifyHL cfg w (m.free a) args with ⟨_ | e', m1⟩ <;> rw [hs] at h1 <;>
      simp only [outs, outsL] at h1 ⊢
    · exact (h1.trans (k := f.arcs.map .arc) (release_cons m1 f) (by counts)).perm (by counts)
    · exact (h1.trans (k := f.arcs.map .arc) (simpCallH_cons w m1 f e') (by counts)).perm (by counts)
theorem simplifyHL_cons (cfg : Cfg) (w : World) : ∀ (es : List HElem) (m : Mem),
    Conserves m (ownsL es) (outsL (simplifyHL cfg w m es).1) (simplifyHL cfg w m es).2
  | [], m => by rw [simplifyHL]; exact refl_cons m []
  | a :: as, m => by
    rw [simplifyHL]
    have h1 := simplifyH_cons cfg w a m
    rcases hs : simplifyH cfg w m a with ⟨_ | a', m1⟩ <;> rw [hs] at h1 <;>
      simp only [outs, outsL] at h1 ⊢
    · exact h1.trans (k := ownsL as) (dropL_cons m1 as) (by counts)
    · have h2 := simplifyHL_cons cfg w as m1
      rcases hs2 : simplifyHL cfg w m1 as with ⟨_ | as', m2⟩ <;> rw [hs2] at h2 <;>
        simp only [outsL] at h2 ⊢
      · have := h2.trans (k := a'.owns) (drop_cons m2 a') (by counts)
        exact h1.trans (k := ownsL as) this (by counts)
      · have := h2.trans (k := a'.owns) (refl_cons m2 (ownsL (a' :: as'))) (by counts)
        exact h1.trans (k := ownsL as) this (by counts)
end

mutual
theorem simplifyForH_cons (cfg : Cfg) (w : World) (x : Bytes) (v : F64) : ∀ (e : HElem) (m : Mem),
    Conserves m e.owns (outs (simplifyForH cfg w x v m e).1) (simplifyForH cfg w x v m e).2
  | .num x, m => by rw [simplifyForH]; exact refl_cons m []
  | .var x, m => by rw [simplifyForH]; split <;> exact refl_cons m []
  | .bin a op l r, m => by
    rw [simplifyForH]
    have h1 := (free_cons m a).trans (k := l.owns) (simplifyForH_cons cfg w x v l (m.free a)) (by counts)
    rcases hs : simplifyForH cfg w x v (m.free a) l with ⟨_ | l', m1⟩ <;> rw [hs] at h1 <;>
      simp only [outs] at h1 ⊢
    · exact (h1.trans (k := r.owns) (drop_cons m1 r) (by counts)).perm (by counts)
    · have h2 := simplifyForH_cons cfg w x v r m1
      rcases hs2 : simplifyForH cfg w x v m1 r with ⟨_ | r', m2⟩ <;> rw [hs2] at h2 <;>
        simp only [outs] at h2 ⊢
      · have := h2.trans (k := l'.owns) (drop_cons m2 l') (by counts)
        exact (h1.trans (k := r.owns) this (by counts)).perm (by counts)
      · have h3 := bin_cons (m := m2) (op := op) (simplifyH_cons cfg w l') (simplifyH_cons cfg w r') rfl
        have := h2.trans (k := l'.owns) h3 (by counts)
        exact (h1.trans (k := r.owns) this (by counts)).perm (by counts)
  | .un a op e, m => by
    rw [simplifyForH]
    have h1 := (free_cons m a).trans (k := e.owns) (simplifyForH_cons cfg w x v e (m.free a)) (by counts)
    rcases hs : simplifyForH cfg w x v (m.free a) e with ⟨_ | e', m1⟩ <;> rw [hs] at h1 <;>
      simp only [outs] at h1 ⊢
    · exact h1
    · have h2 := simplifyH_cons cfg w e' m1
      have h3 := h1.trans (k := []) h2 (by counts)
      rcases hs2 : simplifyH cfg w m1 e' with ⟨_ | e2, m2⟩ <;> rw [hs2] at h3 <;>
        simp only [outs] at h3 ⊢
      · exact h3.perm (by counts)
      · exact (h3.trans (k := []) (simpUnH_cons m2 op e2) (by counts)).perm (by counts)
  | .call a f args, m => by
    rw [simplifyForH]
    have h1 := (free_cons m a).trans (k := ownsL args) (simplifyForHL_cons cfg w x v args (m.free a)) (by counts)
    rcases hs : simplifyForHL cfg w x v (m.free a) args with ⟨_ | e', m1⟩ <;> rw [hs] at h1 <;>
      simp only [outs, outsL] at h1 ⊢
    · exact (h1.trans (k := f.arcs.map .arc) (release_cons m1 f) (by counts)).perm (by counts)
    · have h2 := simplifyHL_cons cfg w e' m1
      have h3 := h1.trans (k := []) h2 (by counts)
      rcases hs2 : simplifyHL cfg w m1 e' with ⟨_ | e2, m2⟩ <;> rw [hs2] at h3 <;>
        simp only [outsL] at h3 ⊢
      · exact (h3.trans (k := f.arcs.map .arc) (release_cons m2 f) (by counts)).perm (by counts)
      · exact (h3.trans (k := f.arcs.map .arc) (simpCallH_cons w m2 f e2) (by counts)).perm (by counts)
theorem simplifyForHL_cons (cfg : Cfg) (w : World) (x : Bytes) (v : F64) : ∀ (es : List HElem) (m : Mem),
    Conserves m (ownsL es) (outsL (simplifyForHL cfg w x v m es).1) (simplifyForHL cfg w x v m es).2
  | [], m => by rw [simplifyForHL]; exact refl_cons m []
  | a :: as, m => by
    rw [simplifyForHL]
    have h1 := simplifyForH_cons cfg w x v a m
    rcases hs : simplifyForH cfg w x v m a with ⟨_ | a', m1⟩ <;> rw [hs] at h1 <;>
      simp only [outs, outsL] at h1 ⊢
    · exact h1.trans (k := ownsL as) (dropL_cons m1 as) (by counts)
    · have h2 := simplifyForHL_cons cfg w x v as m1
      rcases hs2 : simplifyForHL cfg w x v m1 as with ⟨_ | as', m2⟩ <;> rw [hs2] at h2 <;>
        simp only [outsL] at h2 ⊢
      · have := h2.trans (k := a'.owns) (drop_cons m2 a') (by counts)
        exact h1.trans (k := ownsL as) this (by counts)
      · have := h2.trans (k := a'.owns) (refl_cons m2 (ownsL (a' :: as'))) (by counts)
        exact h1.trans (k := ownsL as) this (by counts)
end

/-! ### Without the addresses it is the simplification of the model -/

def eraseR (r : Run HElem) : PM Elem := r.1.map HElem.erase
def eraseRL (r : Run (List HElem)) : PM (List Elem) := r.1.map eraseL

theorem dropBoth_erase (m : Mem) (l r : HElem) (x : PM F64) : eraseR (dropBoth m l r x) = x.map .num := by
  cases x <;> rfl

theorem foldBinH_erase (w : World) (m : Mem) (op : Op) (l r : HElem) :
    eraseR (foldBinH w m op l r) = foldBin w op l.erase r.erase := by
  cases l with
  | num a =>
    cases r with
    | num b => exact dropBoth_erase ..
    | _ => rfl
  | _ => rfl

theorem guardH_erase {m : Mem} {l r : HElem} {a b : Elem} {x : F64} {rest : Run HElem} :
    eraseR (guardH m l r a b x rest) = guardEq a b (.num x) (eraseR rest) := by
  unfold guardH guardEq
  split <;> rename_i h <;> simp only [h] <;> first | rfl | exact dropBoth_erase ..

theorem negOf_erase (e : HElem) : e.erase.negOf? = (e.negOf?.map fun p => p.2.erase) := by
  cases e with
  | un a op e => cases op <;> rfl
  | _ => rfl

theorem if_erase {c : Bool} {a b : Run HElem} :
    eraseR (if c then a else b) = if c then eraseR a else eraseR b := by
  cases c <;> rfl

theorem simpBinH_erase (cfg : Cfg) (w : World) (m : Mem) (op : Op) (l r : HElem) :
    eraseR (simpBinH cfg w m op l r) = simpBin cfg w op l.erase r.erase := by
  cases op with
  | plus =>
    show eraseR (simpPlusH cfg w m l r) = simpPlus cfg w l.erase r.erase
    unfold simpPlusH simpPlus
    simp only [if_erase, negOf_erase]
    cases cfg.nightly with
    | false => simp only [foldBinH_erase]; rfl
    | true =>
      rcases hl : l.negOf? with _ | ⟨a, x⟩ <;> rcases hr : r.negOf? with _ | ⟨b, y⟩ <;>
        simp only [Option.map, guardH_erase, foldBinH_erase] <;> rfl
  | minus =>
    show eraseR (simpMinusH cfg w m l r) = simpMinus cfg w l.erase r.erase
    unfold simpMinusH simpMinus
    simp only [if_erase, negOf_erase, guardH_erase]
    cases cfg.nightly with
    | false => simp only [foldBinH_erase]; rfl
    | true =>
      rcases hr : r.negOf? with _ | ⟨b, y⟩ <;>
        simp only [Option.map, foldBinH_erase] <;> rfl
  | times =>
    show eraseR (simpTimesH cfg w m l r) = simpTimes cfg w l.erase r.erase
    unfold simpTimesH simpTimes
    simp only [if_erase, negOf_erase, dropBoth_erase]
    cases cfg.nightly with
    | false => simp only [foldBinH_erase]; rfl
    | true =>
      rcases hl : l.negOf? with _ | ⟨a, x⟩ <;> rcases hr : r.negOf? with _ | ⟨b, y⟩ <;>
        simp only [Option.map, foldBinH_erase] <;> rfl
  | divide =>
    show eraseR (simpDivideH cfg w m l r) = simpDivide cfg w l.erase r.erase
    unfold simpDivideH simpDivide
    simp only [if_erase, negOf_erase, dropBoth_erase, guardH_erase]
    cases cfg.nightly with
    | false => simp only [foldBinH_erase, if_erase, dropBoth_erase]; rfl
    | true =>
      rcases hl : l.negOf? with _ | ⟨a, x⟩ <;> rcases hr : r.negOf? with _ | ⟨b, y⟩ <;>
        simp only [Option.map, foldBinH_erase, if_erase, dropBoth_erase] <;> rfl
  | power =>
    show eraseR (simpPowerH w m l r) = simpPower w l.erase r.erase
    unfold simpPowerH simpPower
    simp only [if_erase, dropBoth_erase, foldBinH_erase]
    rfl
  | modulo =>
    show eraseR (simpModuloH w m l r) = simpModulo w l.erase r.erase
    unfold simpModuloH simpModulo
    simp only [if_erase, dropBoth_erase, foldBinH_erase, guardH_erase]
    rfl
  | factorial => exact foldBinH_erase ..

theorem simpUnH_erase (m : Mem) (op : Op) (e : HElem) :
    eraseR (simpUnH m op e) = simpUn op e.erase := by
  cases op with
  | factorial =>
    cases e with
    | num x =>
      show ((factorial x).map HElem.num).map HElem.erase = (factorial x).map Elem.num
      cases factorial x <;> rfl
    | _ => rfl
  | minus => cases e <;> rfl
  | _ => rfl

theorem eraseL_length : ∀ es : List HElem, (eraseL es).length = es.length
  | [] => rfl
  | _ :: es => congrArg (· + 1) (eraseL_length es)

theorem simpCallH_erase (w : World) (m : Mem) (f : Func) (args : List HElem) :
    eraseR (simpCallH w m f args) = simpCall w f (eraseL args) := by
  unfold simpCallH simpCall
  rw [eraseL_length]
  split
  · show ((callFn w f (numsOf (eraseL args))).map HElem.num).map HElem.erase =
      (callFn w f (numsOf (eraseL args))).map Elem.num
    cases callFn w f (numsOf (eraseL args)) <;> rfl
  · rfl

mutual
theorem simplifyH_erase (cfg : Cfg) (w : World) : ∀ (e : HElem) (m : Mem),
    eraseR (simplifyH cfg w m e) = simplify cfg w e.erase
  | .num x, m => by rw [simplifyH, HElem.erase, simplify]; rfl
  | .var x, m => by rw [simplifyH, HElem.erase, simplify]; rfl
  | .bin a op l r, m => by
    rw [simplifyH, HElem.erase, simplify, ← simplifyH_erase cfg w l (m.free a)]
    rcases simplifyH cfg w (m.free a) l with ⟨_ | l', m1⟩
    · rfl
    · simp only [eraseR, Except.map]
      rw [← simplifyH_erase cfg w r m1]
      rcases simplifyH cfg w m1 r with ⟨_ | r', m2⟩
      · rfl
      · exact simpBinH_erase cfg w m2 op l' r'
  | .un a op e, m => by
    rw [simplifyH, HElem.erase, simplify, ← simplifyH_erase cfg w e (m.free a)]
    rcases simplifyH cfg w (m.free a) e with ⟨_ | e', m1⟩
    · rfl
    · exact simpUnH_erase m1 op e'
  | .call a f args, m => by
    rw [simplifyH, HElem.erase, simplify, ← simplifyHL_erase cfg w args (m.free a)]
    rcases simplifyHL cfg w (m.free a) args with ⟨_ | e', m1⟩
    · rfl
    · exact simpCallH_erase w m1 f e'
theorem simplifyHL_erase (cfg : Cfg) (w : World) : ∀ (es : List HElem) (m : Mem),
    eraseRL (simplifyHL cfg w m es) = simplifyL cfg w (eraseL es)
  | [], m => by rw [simplifyHL, eraseL, simplifyL]; rfl
  | a :: as, m => by
    rw [simplifyHL, eraseL, simplifyL, ← simplifyH_erase cfg w a m]
    rcases simplifyH cfg w m a with ⟨_ | a', m1⟩
    · rfl
    · simp only [eraseR, Except.map]
      rw [← simplifyHL_erase cfg w as m1]
      rcases simplifyHL cfg w m1 as with ⟨_ | as', m2⟩ <;> rfl
end

mutual
theorem simplifyForH_erase (cfg : Cfg) (w : World) (x : Bytes) (v : F64) : ∀ (e : HElem) (m : Mem),
    eraseR (simplifyForH cfg w x v m e) = simplifyFor cfg w x v e.erase
  | .num x, m => by rw [simplifyForH, HElem.erase, simplifyFor]; rfl
  | .var y, m => by rw [simplifyForH, HElem.erase, simplifyFor]; split <;> rfl
  | .bin a op l r, m => by
    rw [simplifyForH, HElem.erase, simplifyFor, ← simplifyForH_erase cfg w x v l (m.free a)]
    rcases simplifyForH cfg w x v (m.free a) l with ⟨_ | l', m1⟩
    · rfl
    · simp only [eraseR, Except.map]
      rw [← simplifyForH_erase cfg w x v r m1]
      rcases simplifyForH cfg w x v m1 r with ⟨_ | r', m2⟩
      · rfl
      · simp only [eraseR, Except.map]
        rw [simplify, ← simplifyH_erase cfg w l' m2]
        rcases simplifyH cfg w m2 l' with ⟨_ | l2, m3⟩
        · rfl
        · simp only [eraseR, Except.map]
          rw [← simplifyH_erase cfg w r' m3]
          rcases simplifyH cfg w m3 r' with ⟨_ | r2, m4⟩
          · rfl
          · exact simpBinH_erase cfg w m4 op l2 r2
  | .un a op e, m => by
    rw [simplifyForH, HElem.erase, simplifyFor, ← simplifyForH_erase cfg w x v e (m.free a)]
    rcases simplifyForH cfg w x v (m.free a) e with ⟨_ | e', m1⟩
    · rfl
    · simp only [eraseR, Except.map]
      rw [simplify, ← simplifyH_erase cfg w e' m1]
      rcases simplifyH cfg w m1 e' with ⟨_ | e2, m2⟩
      · rfl
      · exact simpUnH_erase m2 op e2
  | .call a f args, m => by
    rw [simplifyForH, HElem.erase, simplifyFor, ← simplifyForHL_erase cfg w x v args (m.free a)]
    rcases simplifyForHL cfg w x v (m.free a) args with ⟨_ | e', m1⟩
    · rfl
    · simp only [eraseRL, Except.map]
      rw [simplify, ← simplifyHL_erase cfg w e' m1]
      rcases simplifyHL cfg w m1 e' with ⟨_ | e2, m2⟩
      · rfl
      · exact simpCallH_erase w m2 f e2
theorem simplifyForHL_erase (cfg : Cfg) (w : World) (x : Bytes) (v : F64) : ∀ (es : List HElem) (m : Mem),
    eraseRL (simplifyForHL cfg w x v m es) = simplifyForL cfg w x v (eraseL es)
  | [], m => by rw [simplifyForHL, eraseL, simplifyForL]; rfl
  | a :: as, m => by
    rw [simplifyForHL, eraseL, simplifyForL, ← simplifyForH_erase cfg w x v a m]
    rcases simplifyForH cfg w x v m a with ⟨_ | a', m1⟩
    · rfl
    · simp only [eraseR, Except.map]
      rw [← simplifyForHL_erase cfg w x v as m1]
      rcases simplifyForHL cfg w x v m1 as with ⟨_ | as', m2⟩ <;> rfl
end

/-! ### Every tree can be laid out in memory -/

mutual
theorem exists_layout : ∀ (e : Elem) (m : Mem), ∃ (h : HElem) (m' : Mem), h.erase = e ∧
    Conserves m [] h.owns m'
  | .num x, m => ⟨.num x, m, rfl, refl_cons m []⟩
  | .var x, m => ⟨.var x, m, rfl, refl_cons m []⟩
  | .bin op l r, m => by
    obtain ⟨hl, m1, rfl, a1⟩ := exists_layout l m
    obtain ⟨hr, m2, rfl, b1⟩ := exists_layout r m1
    refine ⟨.bin m2.next op hl hr, (newBin m2 op hl hr).2, rfl, ?_⟩
    exact a1.trans (k := []) ((b1.frame hl.owns).trans (k := []) (newBin_cons m2 op hl hr) (by counts)) (by counts)
  | .un op e, m => by
    obtain ⟨hl, m1, rfl, a1⟩ := exists_layout e m
    exact ⟨.un m1.next op hl, (newUn m1 op hl).2, rfl, a1.trans (k := []) (newUn_cons m1 op hl) (by counts)⟩
  | .call f args, m => by
    obtain ⟨hl, m1, rfl, a1⟩ := exists_layoutL args m
    refine ⟨.call m1.next f hl, (newCall (m1.share f) f hl).2, rfl, ?_⟩
    exact a1.trans (k := [])
      (((share_cons m1 f).frame (ownsL hl)).trans (k := []) (newCall_cons _ f hl) (by counts)) (by counts)
theorem exists_layoutL : ∀ (es : List Elem) (m : Mem), ∃ (h : List HElem) (m' : Mem), eraseL h = es ∧
    Conserves m [] (ownsL h) m'
  | [], m => ⟨[], m, rfl, refl_cons m []⟩
  | e :: es, m => by
    obtain ⟨hl, m1, rfl, a1⟩ := exists_layout e m
    obtain ⟨hr, m2, rfl, b1⟩ := exists_layoutL es m1
    refine ⟨hl :: hr, m2, rfl, ?_⟩
    exact a1.trans (k := []) ((b1.frame hl.owns).trans (k := []) (refl_cons m2 _) (by counts)) (by counts)
end

end Xprs
