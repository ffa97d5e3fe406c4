/-
The texts of actions, and what the parser makes of them.
-/
import Verif.Proofs.SectionsRead

namespace Pddl
open Spec

/-! ### Scopes that know the same terms -/

/-- `E'` knows what `E` knows. -/
structure ScopeLe (E E' : GEnv) : Prop where
  float : E'.float = E.float
  ext : ∀ r ∈ E.ext, r ∈ E'.ext
  constant : ∀ n t, E.constant n = .ok t → E'.constant n = .ok t
  params : ∀ n, dictGet E'.params n = dictGet E.params n
  typedVars : E'.typedVars = E.typedVars

variable {E E' : GEnv}

theorem ScopeLe.known (h : ScopeLe E E') {t : Term} (ht : Known E t) : Known E' t := by
  cases t with
  | const n x => exact ⟨ht.1, h.constant _ _ ht.2⟩
  | var v => unfold Known; simp only [h.params]; exact ht

theorem ScopeLe.allows (h : ScopeLe E E') {rs : List Req} (ha : Allows E rs) : Allows E' rs := by
  obtain ⟨r, h1, h2⟩ := ha
  exact ⟨r, h1, h.ext r h2⟩

theorem ScopeLe.num (h : ScopeLe E E') {e : Expr} (hp : PrintNum E e) : PrintNum E' e := by
  induction hp with
  | num h' => exact .num (h.float ▸ h')
  | fn h' => exact .fn (fun t ht => h.known (h' t ht))
  | plus hl _ ih => exact .plus hl ih
  | times hl _ ih => exact .times hl ih
  | divide _ _ ih1 ih2 => exact .divide ih1 ih2
  | minus _ ih => exact .minus ih

theorem ScopeLe.cond (h : ScopeLe E E') {e : Expr} (hp : PrintCond E e) : PrintCond E' e := by
  induction hp with
  | pred h' => exact .pred (fun t ht => h.known (h' t ht))
  | eq h1 h2 h3 => exact .eq (h.known h1) (h.known h2) (h.allows h3)
  | and _ ih => exact .and ih
  | or _ ha ih => exact .or ih (h.allows ha)
  | imply _ _ ha ih1 ih2 => exact .imply ih1 ih2 (h.allows ha)
  | not _ ih => exact .not ih
  | quant h1 h2 _ ha ih => exact .quant (h.typedVars.trans h1) h2 ih (h.allows ha)
  | comp h1 h2 h3 => exact .comp h1 (h.num h2) (h.num h3)

theorem ScopeLe.atom (h : ScopeLe E E') {e : Expr} (hp : PrintAtom E e) : PrintAtom E' e := by
  cases hp with
  | pred h' => exact .pred (fun t ht => h.known (h' t ht))
  | eq h1 h2 h3 => exact .eq (h.known h1) (h.known h2) (h.allows h3)

theorem ScopeLe.lit (h : ScopeLe E E') {e : Expr} (hp : PrintLit E e) : PrintLit E' e := by
  cases hp with
  | atom h' => exact .atom (h.atom h')
  | not h' => exact .not (h.atom h')
  | assign h1 h2 h3 => exact .assign h1 (fun t ht => h.known (h2 t ht)) (h.num h3)

theorem ScopeLe.when (h : ScopeLe E E') {e : Expr} (hp : PrintWhen E e) : PrintWhen E' e := by
  cases hp with
  | lit h' => exact .lit (h.lit h')
  | and h' => exact .and (fun a ha => h.lit (h' a ha))

theorem ScopeLe.eff (h : ScopeLe E E') {top : Bool} {e : Expr} (hp : PrintEff E top e) : PrintEff E' top e := by
  induction hp with
  | lit h' => exact .lit (h.lit h')
  | and _ ih => exact .and ih
  | when h1 h2 => exact .when (h.cond h1) (h.when h2)
  | fall h1 h2 _ ih => exact .fall (h.typedVars.trans h1) h2 ih
  | oneof h1 _ h3 ih => exact .oneof h1 ih (h.allows h3)

/-! ### Actions -/

/-- The tree of an action. -/
def actionTree (a : Action) (p e : Expr) : Tree :=
  .node [.atom (.kw s%"action"), .atom (.name a.name), .atom (.kw s%"parameters"),
    .node ((a.params.flatMap varOf).flatMap quantVarTrees), .atom (.kw s%"precondition"), p.tree,
    .atom (.kw s%"effect"), e.tree]

theorem Prints.action {a : Action} {vs : List Var} {p e : Expr} (hn : NameShape a.name) (hv : a.params = vs.map Term.var)
    (hs : PrintVars vs) (hp : a.pre = some p) (he : a.eff = some e) (wp : Writable p) (we : Writable e) :
    Prints (a.str ++ s%"\n") [actionTree a p e] := by
  have hk1 : Prints s%":action" [.atom (.kw s%"action")] := Prints.kw (k := s%"action") (by decide +kernel) (by decide +kernel)
  have hk2 : Prints s%":parameters" [.atom (.kw s%"parameters")] := Prints.kw (k := s%"parameters") (by decide +kernel) (by decide +kernel)
  have hk3 : Prints s%":precondition" [.atom (.kw s%"precondition")] := Prints.kw (k := s%"precondition") (by decide +kernel) (by decide +kernel)
  have hk4 : Prints s%":effect" [.atom (.kw s%"effect")] := Prints.kw (k := s%"effect") (by decide +kernel) (by decide +kernel)
  have h1 := (hk1.sep isSpace_blank (Prints.name hn)).newline_end
  have h2 := ((hk2.sep isSpace_blank ((Prints.params hs.shapes).paren)).newline_end).spaces (p := s%"    ") (by decide)
  have h3 := ((hk3.sep isSpace_blank (Prints.expr wp)).newline_end).spaces (p := s%"    ") (by decide)
  have h4 := ((hk4.sep isSpace_blank (Prints.expr we)).newline_end).spaces (p := s%"    ") (by decide)
  have h5 := ((h1.append (h2.append (h3.append h4 (delim_space isSpace_blank)) (delim_space isSpace_blank))
    (delim_space isSpace_blank)).paren).newline_end
  unfold Action.str actionTree
  rw [hp, he, hv, declOf_vars]
  simpa [optLine] using h5

theorem tree_ne_empty (e : Expr) : e.tree ≠ .node [] := by
  cases e <;> simp [Expr.tree]

theorem gd_pre {t : Tree} (h : t ≠ .node []) : E.preGd t = E.gd t := by
  unfold GEnv.preGd
  split
  · exact absurd rfl h
  · rfl

theorem eff_opt {t : Tree} (h : t ≠ .node []) : E.effOpt t = E.effect true t := by
  unfold GEnv.effOpt
  split
  · exact absurd rfl h
  · rfl

theorem actionParameters_read {vs : List Var} (h : PrintVars vs) :
    actionParameters (vs.flatMap quantVarTrees) = .ok (vs.map (fun v => (v.name, Term.var v))) := by
  obtain ⟨toks, l, h1, h2, h3⟩ := printVars_read h
  unfold actionParameters parseTypedVars
  rw [h1]
  simp only [h2, h3, ok_bind, pure_ok]
  rw [dictOf_nodup]
  simpa [IsDict, List.map_map, Function.comp_def] using h.distinct

/-- A printed action is read as the same action. -/
theorem actionDef_read {F : FloatOf} {σ : PState} {a : Action} {vs : List Var} {p e : Expr}
    (hn : ValidName a.name) (hv : a.params = vs.map Term.var)
    (hs : PrintVars vs) (hp : a.pre = some p) (he : a.eff = some e)
    (gp : p.Good) (ge : e.Good) (tp : TagSets p) (te : TagSets e)
    (pp : PrintCond (PState.env { σ with params := vs.map (fun v => (v.name, Term.var v)) } F) p)
    (pe : PrintEff (PState.env { σ with params := vs.map (fun v => (v.name, Term.var v)) } F) true e) :
    actionDef F σ [.atom (.name a.name), .atom (.kw s%"parameters"),
      .node ((a.params.flatMap varOf).flatMap quantVarTrees), .atom (.kw s%"precondition"), p.tree,
      .atom (.kw s%"effect"), e.tree] = .ok (a, { σ with params := vs.map (fun v => (v.name, Term.var v)) }) := by
  have ho : OneType (PState.env { σ with params := vs.map (fun v => (v.name, Term.var v)) } F) := by
    intro n w h
    have := mem_of_dictGet h
    obtain ⟨v, hv', e'⟩ := List.mem_map.1 this
    simp only [Prod.mk.injEq, Term.var.injEq] at e'
    rw [← e'.2]
    rcases hs.types v hv' with h | ⟨t, h, _⟩ <;> simp [h]
  have h1 := gd_of_rel (printCond_exact ho pp gp tp)
  have h2 := effect_iff.2 (printEff_exact ho pe ge te)
  rw [hv, declOf_vars]
  simp only [actionDef, decide_true, check, if_true, ok_bind, actionParameters_read hs, actionPre, gd_pre (tree_ne_empty _), h1, pure_ok,
    actionEff, eff_opt (tree_ne_empty _), h2, mkAction, parseName_of_valid hn, List.map_map, Function.comp_def]
  rw [← hv, ← hp, ← he]

end Pddl
