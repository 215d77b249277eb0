import Verif.Spec.Flat
import Verif.Lemmas.Builds
import Verif.Lemmas.Compose
import Verif.Lemmas.Parts
/-
In builds without optimizations the accepted texts are those of the language without
precedences (`Spec/Flat`).
-/
namespace Xprs
open Spec

section
variable {ctx : Context}

theorem flat_ne {sh : Shape} {ts : List Bytes} (h : Flat ctx sh ts) : ts ≠ [] := by
  induction h <;> simp_all

/-! ### From trees to rows -/

/-- What can stand before an operand can stand before a row. -/
theorem flat_glue {pre : List Bytes} {H : Option Bytes → Prop}
    (hp : ∀ {k us}, Flat ctx (.signed k) us → H us.head? → Flat ctx (.row false) (pre ++ us))
    {k : Bool} {us : List Bytes} (h : Flat ctx (.row k) us) (hh : H us.head?) :
    Flat ctx (.row false) (pre ++ us) := by
  generalize hs : Shape.row k = sh at h
  induction h generalizing k with
  | one h _ => exact hp h hh
  | @oper n k o ts us h1 ho h2 ih _ =>
    rw [head_append_ne (flat_ne h1)] at hh
    rw [← List.append_assoc]
    exact .oper (ih hh rfl) ho h2
  | @bangs n k ts us h1 ho h2 ih _ =>
    rw [head_append_ne (flat_ne h1)] at hh
    rw [← List.append_assoc]
    exact .bangs (ih hh rfl) (by rw [last_append_ne (flat_ne h1)]; exact ho) h2
  | @juxt n k t c ts us h1 h2 h3 h4 h5 ih _ =>
    rw [head_append_ne (flat_ne h1)] at hh
    rw [← List.append_assoc]
    exact .juxt (ih hh rfl) h2 h3 h4 (by rcases h5 with h | h | h; exacts [.inl h, .inr (.inl h), .inr (.inr ⟨h.1, rfl⟩)])
  | _ => cases hs

theorem number_paren {ws ws2 : Bytes} {x : Cst} : isNumber .ok ctx (.paren ws x ws2) ↔ isNumber .ok ctx x := by
  unfold isNumber
  rw [Cst.den]
  cases x.den .ok ctx <;> rfl

variable {cfg : Cfg}

/-- Behind what does not extend over `!` there is a `!` already. -/
theorem closed_last {fin : Elem → PM Elem} {rest : Bytes} (hb : firstTok rest = some c!"!") : ∀ x : Cst,
    x.closed cfg fin ctx rest → x.toks.getLast? = some b!"!"
  | .num .., h => absurd hb h
  | .name .., h => absurd hb h
  | .call .., h => absurd hb h
  | .paren .., h => absurd hb h
  | .sign _ neg x, h => by
    rw [Cst.toks, show [if neg then c!"-" else c!"+"] :: x.toks = [[if neg then c!"-" else c!"+"]] ++ x.toks from rfl,
      last_append_ne (toks_ne.1 x)]
    exact closed_last hb x h.2
  | .fact x _, _ => by rw [Cst.toks]; simp
  | .bin l _ op r, h => by
    rw [Cst.toks, show l.toks ++ [opChar op] :: r.toks = (l.toks ++ [[opChar op]]) ++ r.toks by simp,
      last_append_ne (toks_ne.1 r)]
    exact closed_last hb r h.2
  | .juxt l r, h => by
    rw [Cst.toks, last_append_ne (toks_ne.1 r)]
    exact closed_last hb r h.2

/-- In any build, the tokens of a legal text are a row. -/
theorem flat_of_cst {fin : Elem → PM Elem} (hfin : ∀ v, fin (.num v) = .ok (.num v)) :
    (∀ (x : Cst) (rest : Bytes) (ts : List Bytes), Lex rest ts → x.wf cfg fin ctx rest →
      ∃ n, (n = true → isNumber fin ctx x) ∧ Flat ctx (.row n) x.toks ∧
        (x.primary → Flat ctx (.operand n) x.toks)) ∧
    (∀ (as : CArgs) (rest : Bytes) (ts : List Bytes), Lex rest ts → as.wf cfg fin ctx rest →
      Flat ctx (.args as.count) as.toks) := by
  have sym0 : ∀ {ws : Bytes} {c : UInt8} {rest : Bytes} {ts : List Bytes}, spaces ws → symb c → Lex rest ts →
      Lex (ws ++ c :: rest) ([c] :: ts) := fun hw hc h => Lex.sym hw hc h
  refine cst_ind ?_ ?_ ?_ ?_ ?_ ?_ ?_ ?_ ?_ ?_
  · intro ws txt v rest ts hr hw
    have : Flat ctx (.operand true) [txt] := .num ⟨v, by
      have := hw.2; exact literal_open (rest := []) this⟩
    exact ⟨true, fun _ => ⟨v, rfl⟩, .one (.plain this), fun _ => this⟩
  · intro ws nm rest ts hr hw
    have hn := name_isName hw.2.1
    cases hl : lookup ctx nm with
    | const x =>
      have : Flat ctx (.operand true) [nm] := .const hn hl
      exact ⟨true, fun _ => ⟨x, by rw [Cst.den, hl]⟩, .one (.plain this), fun _ => this⟩
    | func f => exact absurd hl (hw.2.2 f)
    | var n =>
      have : Flat ctx (.operand false) [nm] := .var hn (by simp [hl]) (by simp [hl])
      exact ⟨false, nofun, .one (.plain this), fun _ => this⟩
  · intro ws nm ws2 as ih rest ts hr hw
    obtain ⟨w1, w2, w3, ⟨f, f1, f2⟩, w4⟩ := hw
    have : Flat ctx (.operand false) (Cst.call ws nm ws2 as).toks := .call (name_isName w2) f1 (ih _ _ hr w4) f2
    exact ⟨false, nofun, .one (.plain this), fun _ => this⟩
  · intro ws x ws2 ih rest ts hr hw
    obtain ⟨w1, w2, w3⟩ := hw
    obtain ⟨n, h1, h2, _⟩ := ih _ _ (sym0 w2 (by decide) hr) w3
    have : Flat ctx (.operand n) (Cst.paren ws x ws2).toks := .paren h2
    refine ⟨n, fun hn => ?_, .one (.plain this), fun _ => this⟩
    obtain ⟨v, hv⟩ := h1 hn
    exact ⟨v, by rw [Cst.den, hv]; exact hfin v⟩
  · intro ws neg x ih rest ts hr hw
    obtain ⟨n, h1, h2, _⟩ := ih _ _ hr hw.2.1
    refine ⟨false, nofun, ?_, fun h => h.elim⟩
    exact flat_glue (pre := [[if neg then c!"-" else c!"+"]]) (H := fun _ => True)
      (fun h _ => .one (.sign h)) h2 trivial
  · intro x ws ih rest ts hr hw
    obtain ⟨n, h1, h2, h3⟩ := ih _ _ (sym0 hw.2.1 (by decide) hr) hw.2.2
    exact ⟨false, nofun, .one (.bang (h3 hw.1)), fun h => h.elim⟩
  · intro l ws op r ihl ihr rest ts hr hw
    obtain ⟨w1, w2, w3, w4, w5⟩ := hw
    have hlr : Lex (ws ++ opChar op :: r.text ++ rest) ([opChar op] :: (r.toks ++ ts)) := by
      have := sym0 w1 (symb_op op) (lex_text.1 r _ _ w4 hr)
      simpa using this
    obtain ⟨n, h1, h2, _⟩ := ihl _ _ hlr w2
    obtain ⟨k, h3, h4, _⟩ := ihr _ _ hr w4
    refine ⟨false, nofun, ?_, fun h => h.elim⟩
    have e : (Cst.bin l ws op r).toks = (l.toks ++ [[opChar op]]) ++ r.toks := by simp [Cst.toks]
    rw [e]
    by_cases hop : op = .factorial
    · subst hop
      have hb := closed_last (lex_firstTok hlr) l w3
      refine flat_glue (H := fun _ => True) (fun h _ => ?_) h4 trivial
      rw [List.append_assoc]
      exact .bangs h2 hb h
    · refine flat_glue (H := fun _ => True) (fun h _ => ?_) h4 trivial
      rw [List.append_assoc]
      exact .oper h2 (by cases op <;> first | decide | exact absurd rfl hop) h
  · intro l r ihl ihr rest ts hr hw
    obtain ⟨w2, w3, w4, w5, c, hc, hl⟩ := hw
    have hlr := lex_text.1 r _ _ w4 hr
    obtain ⟨n, h1, h2, _⟩ := ihl _ _ hlr w2
    obtain ⟨k, h3, h4, _⟩ := ihr _ _ hr w4
    rw [lex_firstTok hlr, head_append_ne (toks_ne.1 r)] at hc
    refine ⟨false, nofun, ?_, fun h => h.elim⟩
    refine flat_glue (H := fun o => o.bind (·.head?) = some c) (fun {k us} h hh => ?_) h4 hc
    obtain ⟨t, ht, hh⟩ := Option.bind_eq_some_iff.1 hh
    refine .juxt h2 h ht hh ?_
    rcases hl with hl | hl | ⟨hl, hn⟩
    · exact .inl hl
    · exact .inr (.inl hl)
    · refine .inr (.inr ⟨hl, ?_⟩)
      cases n
      · rfl
      · exact absurd (h1 rfl) hn
  · intro x ws ih rest ts hr hw
    obtain ⟨n, h1, h2, _⟩ := ih _ _ (sym0 hw.1 (by decide) hr) hw.2
    exact .last h2
  · intro x ws as ih ihs rest ts hr hw
    have h := lex_text.2 as _ _ hw.2.2 hr
    obtain ⟨n, h1, h2, _⟩ := ih _ _ (sym0 hw.1 (c := c!",") (by decide) h) hw.2.1
    exact .more h2 (ihs _ _ hr hw.2.2)

end

end Xprs
