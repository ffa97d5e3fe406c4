/-
Renaming: reading domains, problems and plans.
-/
import Verif.Proofs.RenameFormula
import Verif.Proofs.RenameDomain

namespace Pddl
open Spec

/-! ### Trees of a text -/

theorem mem_wordss {w : Str} {l : List Tree} : w ∈ Tree.wordss l ↔ ∃ t ∈ l, w ∈ t.words := by
  induction l with
  | nil => simp [Tree.wordss]
  | cons a l ih => simp [Tree.wordss, ih]

section
variable {ρ : Str → Str}

theorem readAux_rename (ts : List Tok) (cur : List Tree) (st : List (List Tree)) :
    readAux (ts.map (Tok.rename ρ)) (Tree.renames ρ cur) (st.map (Tree.renames ρ)) =
      (readAux ts cur st).map (Tree.renames ρ) := by
  have hrev : ∀ l : List Tree, (Tree.renames ρ l).reverse = Tree.renames ρ l.reverse := by
    intro l; simp [Tree.renames_eq]
  induction ts generalizing cur st with
  | nil => cases st <;> simp [readAux, hrev]
  | cons t ts ih =>
    have hatom : ∀ t : Tok, Tree.atom (t.rename ρ) :: Tree.renames ρ cur = Tree.renames ρ (.atom t :: cur) := by
      intro t; simp [Tree.renames, Tree.rename]
    cases t with
    | lpar => simpa [readAux, Tok.rename, Tree.renames] using ih [] (cur :: st)
    | rpar =>
      cases st with
      | nil => rfl
      | cons s st =>
        simp only [List.map_cons, Tok.rename, readAux, hrev]
        rw [← ih]
        simp [Tree.renames, Tree.rename]
    | _ => simp only [List.map_cons, Tok.rename, readAux]; rw [← ih]; rfl

theorem readTrees_rename (ts : List Tok) :
    readTrees (ts.map (Tok.rename ρ)) = (readTrees ts).map (Tree.renames ρ) := readAux_rename ts [] []

theorem readAux_words {ts : List Tok} {cur : List Tree} {st : List (List Tree)} {r : List Tree}
    (h : readAux ts cur st = some r) {w : Str} (hw : w ∈ Tree.wordss r) :
    Tok.name w ∈ ts ∨ w ∈ Tree.wordss cur ∨ ∃ s ∈ st, w ∈ Tree.wordss s := by
  induction ts generalizing cur st with
  | nil =>
    cases st with
    | nil =>
      simp only [readAux, Option.some.injEq] at h
      subst h
      right; left
      obtain ⟨t, ht, hw⟩ := mem_wordss.1 hw
      exact mem_wordss.2 ⟨t, List.mem_reverse.1 ht, hw⟩
    | cons s st => simp [readAux] at h
  | cons t ts ih =>
    have gen : readAux ts (.atom t :: cur) st = some r →
        Tok.name w ∈ t :: ts ∨ w ∈ Tree.wordss cur ∨ ∃ s ∈ st, w ∈ Tree.wordss s := by
      intro h
      rcases ih h with h | h | h
      · exact .inl (List.mem_cons_of_mem _ h)
      · rw [Tree.wordss, List.mem_append] at h
        rcases h with h | h
        · left
          cases t <;> simp [Tree.words] at h
          subst h; simp
        · exact .inr (.inl h)
      · exact .inr (.inr h)
    cases t with
    | lpar =>
      rcases ih (by simpa [readAux] using h) with h1 | h1 | ⟨s, hs, h1⟩
      · exact .inl (List.mem_cons_of_mem _ h1)
      · simp [Tree.wordss] at h1
      · rcases List.mem_cons.1 hs with rfl | hs
        · exact .inr (.inl h1)
        · exact .inr (.inr ⟨s, hs, h1⟩)
    | rpar =>
      cases st with
      | nil => simp [readAux] at h
      | cons s st =>
        rcases ih (by simpa [readAux] using h) with h | h | ⟨s', hs, h⟩
        · exact .inl (List.mem_cons_of_mem _ h)
        · rw [Tree.wordss, List.mem_append, Tree.words] at h
          rcases h with h | h
          · right; left
            obtain ⟨t, ht, hw⟩ := mem_wordss.1 h
            exact mem_wordss.2 ⟨t, List.mem_reverse.1 ht, hw⟩
          · exact .inr (.inr ⟨s, by simp, h⟩)
        · exact .inr (.inr ⟨s', List.mem_cons_of_mem _ hs, h⟩)
    | _ => exact gen (by simpa [readAux] using h)

theorem readText_rename {t t' : Str} (hr : Spec.Renamed ρ t t') :
    readText t' = (readText t).map (Tree.renames ρ) := by
  unfold readText
  rw [hr, readTrees_rename]
  cases readTrees (lex t) <;> rfl

theorem readText_loose {t t' : Str} (hr : Spec.Renamed ρ t t') (hl : LooseText t) (hl' : LooseText t')
    {ts : List Tree} (h : readText t = .ok ts) : LooseIn ρ ts := by
  intro w hw
  unfold readText at h
  cases hq : readTrees (lex t) with
  | none => rw [hq] at h; cases h
  | some r =>
    rw [hq] at h
    cases h
    rcases readAux_words hq hw with h | h | ⟨s, hs, h⟩
    · refine ⟨hl w h, hl' _ ?_⟩
      rw [hr, List.mem_map]
      exact ⟨_, h, rfl⟩
    · simp [Tree.wordss] at h
    · simp at hs

/-! ### Sections -/

theorem takeSection_rename (k : Str) (ts : List Tree) :
    takeSection k (Tree.renames ρ ts) =
      ((takeSection k ts).1.map (Tree.renames ρ), Tree.renames ρ (takeSection k ts).2) := by
  rcases ts with _ | ⟨⟨t⟩ | _ | ⟨⟨t⟩ | l, body⟩, rest⟩
  · rfl
  · rfl
  · rfl
  · cases t with
    | kw k' =>
      simp only [Tree.renames, Tree.rename, Tok.rename, takeSection]
      split <;> rfl
    | _ => rfl
  · rfl

theorem takeSection_looseIn {k : Str} {ts : List Tree} (hl : LooseIn ρ ts) :
    (∀ b, (takeSection k ts).1 = some b → LooseIn ρ b) ∧ LooseIn ρ (takeSection k ts).2 := by
  rcases ts with _ | ⟨⟨t⟩ | _ | ⟨⟨t⟩ | l, body⟩, rest⟩
  · exact ⟨(fun b h => by simp [takeSection] at h), hl⟩
  · exact ⟨(fun b h => by simp [takeSection] at h), hl⟩
  · exact ⟨(fun b h => by simp [takeSection] at h), hl⟩
  · cases t with
    | kw k' =>
      simp only [takeSection]
      split
      · refine ⟨(fun b h => ?_), hl.tail⟩
        cases h
        exact hl.body.tail
      · exact ⟨(fun b h => by simp at h), hl⟩
    | _ => exact ⟨(fun b h => by simp [takeSection] at h), hl⟩
  · exact ⟨(fun b h => by simp [takeSection] at h), hl⟩

theorem requireKey_rename (t : Tree) : requireKey (t.rename ρ) = requireKey t := by
  rcases t with t | l
  · cases t <;> rfl
  · rfl

theorem parseRequirements_rename (l : List Tree) : parseRequirements (Tree.renames ρ l) = parseRequirements l := by
  have : (Tree.renames ρ l).mapM requireKey = l.mapM requireKey := by
    induction l with
    | nil => rfl
    | cons a l ih => simp only [Tree.renames, List.mapM_cons, requireKey_rename, ih]
  cases l with
  | nil => rfl
  | cons a l =>
    simp only [Tree.renames] at this
    simp only [Tree.renames, parseRequirements, this]

theorem optSection_map {α β : Type} {g : α → β} {sec : Option (List Tree)} {d : α} {d' : β}
    {f : List Tree → Except Exc α} {f' : List Tree → Except Exc β} (hd : d' = g d)
    (hf : ∀ b, sec = some b → f' (Tree.renames ρ b) = (f b).map g) :
    optSection (sec.map (Tree.renames ρ)) d' f' = (optSection sec d f).map g := by
  cases sec with
  | none => subst hd; rfl
  | some b => exact hf b rfl

variable (R : Renaming ρ)
include R

theorem Spec.Renaming.parseTypedNames (l : List Tree) :
    Pddl.parseTypedNames (Tree.renames ρ l) =
      (Pddl.parseTypedNames l).map (List.map (fun p => (ρ p.1, p.2.map ρ))) := by
  simp only [Pddl.parseTypedNames, R.typedNameToks]
  cases Pddl.typedNameToks false l with
  | none => rfl
  | some toks => exact R.typedListName toks

theorem Spec.Renaming.parseTypedVars {l : List Tree} (hl : LooseIn ρ l) :
    Pddl.parseTypedVars (Tree.renames ρ l) = (Pddl.parseTypedVars l).map (List.map (Var.rename ρ)) := by
  simp only [Pddl.parseTypedVars, R.typedVarToks false hl]
  cases Pddl.typedVarToks false l with
  | none => rfl
  | some toks => exact map_bind_map (R.typedListVariable toks) (fun l _ => R.mkVars l)

omit R in
/-- A transformer state, renamed. -/
def PState.rename (ρ : Str → Str) (σ : PState) : PState :=
  ⟨σ.ext, σ.consts.map (fun p => (ρ p.1, p.2.rename ρ)), σ.preds.map (fun p => (ρ p.1, p.2.rename ρ)),
    σ.params.map (fun p => (ρ p.1, p.2.rename ρ)), σ.types.map (renameTypes ρ)⟩

theorem Spec.Renaming.env (F : FloatOf) (σ : PState) : GEnv.Renamed ρ (σ.env F) ((σ.rename ρ).env F) := by
  refine ⟨rfl, rfl, fun n => ?_, rfl, R.typedListVariable⟩
  simp only [PState.env, PState.rename, PState.constant, dictGet_ren R.inj]
  cases dictGet σ.consts n <;> rfl

theorem Spec.Renaming.sectionTypes (σ : PState) (l : List Tree) :
    Pddl.sectionTypes (σ.rename ρ) (Tree.renames ρ l) =
      (Pddl.sectionTypes σ l).map (fun p => (renameTypes ρ p.1, p.2.rename ρ)) := by
  unfold Pddl.sectionTypes
  refine map_bind_map (R.parseTypedNames l) (fun d _ => ?_)
  refine check_bind_map ?_ (fun _ => check_bind_map ?_ (fun _ => ?_))
  · rw [List.any_map]
    congr 3
    funext p
    simp
  · simp [PState.rename]
  · have ho : ∀ v : Option Str, v.map ρ = some s%"object" ↔ v = some s%"object" := by
      rintro (_ | v)
      · simp
      · simp [R.fixed_iff (R.symbol (w := s%"object") (by simp [allSymbols]))]
    have : (d.map (fun p => (ρ p.1, p.2.map ρ))).map (fun p => if p.2 = some s%"object" then (p.1, none) else p) =
        renameTypes ρ (d.map (fun p => if p.2 = some s%"object" then (p.1, none) else p)) := by
      simp only [renameTypes, List.map_map]
      apply List.map_congr_left
      rintro ⟨k, v⟩ _
      simp only [Function.comp, ho]
      split <;> rfl
    simp only [this]
    rfl

theorem Spec.Renaming.mkConsts (l : List (Str × Option Str)) :
    Pddl.mkConsts (l.map (fun p => (ρ p.1, p.2.map ρ))) =
      (Pddl.mkConsts l).map (List.map (fun p => (ρ p.1, p.2.rename ρ))) := by
  induction l with
  | nil => rfl
  | cons p l ih =>
    obtain ⟨n, tag⟩ := p
    simp only [List.map_cons, Pddl.mkConsts]
    exact map_bind_map (R.mkConst n tag) (fun t _ => map_bind_map ih (fun r _ => rfl))

theorem Spec.Renaming.sectionConstants (σ : PState) (l : List Tree) :
    Pddl.sectionConstants (σ.rename ρ) (Tree.renames ρ l) =
      (Pddl.sectionConstants σ l).map (fun p => (p.1.map (Term.rename ρ), p.2.rename ρ)) := by
  unfold Pddl.sectionConstants
  refine map_bind_map (R.parseTypedNames l) (fun d _ => map_bind_map (R.mkConsts d) (fun cs _ => ?_))
  simp only [dictOf_ren R.inj]
  show Except.ok _ = Except.ok _
  simp [PState.rename, Function.comp_def]

theorem Spec.Renaming.formulaSkeleton {t : Tree} (hl : LooseIn ρ [t]) :
    Pddl.formulaSkeleton (t.rename ρ) = (Pddl.formulaSkeleton t).map (Pred.rename ρ) := by
  rcases t with t | _ | ⟨⟨t⟩ | l, body⟩
  · rfl
  · rfl
  · cases t with
    | name n =>
      simp only [Tree.rename, Tree.renames, Tok.rename, Pddl.formulaSkeleton]
      refine map_bind_map (R.parseTypedVars hl.node.tail) (fun vs _ => ?_)
      have : (vs.map (Var.rename ρ)).map Term.var = (vs.map Term.var).map (Term.rename ρ) := by
        simp [Function.comp_def, Term.rename]
      rw [this]
      exact R.mkPred n _
    | _ => rfl
  · rfl

theorem Spec.Renaming.sectionPredicates (σ : PState) {l : List Tree} (hl : LooseIn ρ l) :
    Pddl.sectionPredicates (σ.rename ρ) (Tree.renames ρ l) =
      (Pddl.sectionPredicates σ l).map (fun p => (p.1.map (Pred.rename ρ), p.2.rename ρ)) := by
  unfold Pddl.sectionPredicates
  rw [Tree.renames_length, Tree.renames_eq]
  refine map_bind_map (mapM_rename l (fun t ht => R.formulaSkeleton (hl.mem ht))) (fun ps _ => ?_)
  refine check_bind_map rfl (fun _ => ?_)
  have : dictOf ((ps.map (Pred.rename ρ)).map (fun p => (p.name, p))) =
      (dictOf (ps.map (fun p => (p.name, p)))).map (fun p => (ρ p.1, p.2.rename ρ)) := by
    rw [← dictOf_ren R.inj]
    simp [Function.comp_def, Pred.rename]
  rw [this]
  rfl

theorem Spec.Renaming.functionSkeleton {t : Tree} (hl : LooseIn ρ [t]) :
    Pddl.functionSkeleton (t.rename ρ) = (Pddl.functionSkeleton t).map (NFun.rename ρ) := by
  rcases t with t | _ | ⟨⟨t⟩ | l, body⟩
  · rfl
  · rfl
  · cases t with
    | name n =>
      have hts : s%"total-cost" ∈ allSymbols := by simp [allSymbols]
      simp only [Tree.rename, Tree.renames, Tok.rename, Pddl.functionSkeleton, R.typedVarToks false hl.node.tail,
        R.fixed_iff (R.symbol hts) (w := n)]
      cases Pddl.typedVarToks false body with
      | none => rfl
      | some toks =>
        simp only [Option.map_some]
        refine map_bind_map (R.typedListVariable toks) (fun l _ => ?_)
        split
        · have := R.mkNFun s%"total-cost" []
          rwa [R.symbol hts] at this
        · refine map_bind_map (R.mkVars l) (fun vs _ => ?_)
          have : (vs.map (Var.rename ρ)).map Term.var = (vs.map Term.var).map (Term.rename ρ) := by
            simp [Function.comp_def, Term.rename]
          rw [this]
          exact R.mkNFun n _
    | _ => rfl
  · rfl

theorem Spec.Renaming.functionToks (b : Bool) {ts : List Tree} (hl : LooseIn ρ ts) :
    Pddl.functionToks b (Tree.renames ρ ts) = (Pddl.functionToks b ts).map (List.map (TTok.rename ρ)) := by
  induction b, ts using Pddl.functionToks.induct with
  | case1 b => cases b <;> rfl
  | case2 t ts ih =>
    simp only [Tree.renames, Tree.rename, Tok.rename, Pddl.functionToks, R.fixed_iff R.number]
    refine check_bind_map rfl (fun _ => map_bind_map (ih hl.tail.tail) (fun r _ => ?_))
    simp [TTok.rename, R.dash]
  | case3 b l ts ih =>
    have := R.functionSkeleton hl.head
    simp only [Tree.renames, Tree.rename, Pddl.functionToks] at this ⊢
    exact map_bind_map this (fun f _ => map_bind_map (ih hl.tail) (fun r _ => by simp [TTok.rename]))
  | case4 ts b h1 h2 h3 =>
    rcases ts with _ | ⟨⟨t⟩ | l, rest⟩
    · exact absurd rfl h1
    · cases t with
      | minus =>
        cases b with
        | false => rcases rest with _ | ⟨⟨t⟩ | l, rest⟩ <;> (try cases t) <;> rfl
        | true =>
          rcases rest with _ | ⟨⟨t⟩ | l, rest⟩
          · rfl
          · cases t <;> first | rfl | exact absurd rfl (h2 _ rest rfl)
          · rfl
      | _ => cases b <;> rfl
    · exact absurd rfl (h3 l rest)

theorem Spec.Renaming.sectionFunctions {l : List Tree} (hl : LooseIn ρ l) :
    Pddl.sectionFunctions (Tree.renames ρ l) = (Pddl.sectionFunctions l).map (renameFuns ρ) := by
  unfold Pddl.sectionFunctions
  rw [Tree.renames_length]
  refine map_bind_map (R.functionToks false hl) (fun toks _ => check_bind_map rfl (fun _ => ?_))
  apply typedListError_rename
  refine map_bind_map (R.parseTypedList false toks) (fun x _ => ?_)
  refine map_bind_map (namesOf_rename x.itemToTypes) (fun l hx => ?_)
  show Except.ok _ = Except.ok _
  rw [renameFuns, List.filterMap_map, List.map_filterMap]
  congr 2
  funext ⟨i, q⟩
  cases i <;> rfl

/-! ### Actions -/

theorem Spec.Renaming.actionParameters {l : List Tree} (hl : LooseIn ρ l) :
    Pddl.actionParameters (Tree.renames ρ l) =
      (Pddl.actionParameters l).map (List.map (fun p => (ρ p.1, p.2.rename ρ))) := by
  unfold Pddl.actionParameters
  refine map_bind_map (R.parseTypedVars hl) (fun vs _ => ?_)
  show Except.ok _ = Except.ok _
  rw [← dictOf_ren R.inj]
  simp [Function.comp_def, Var.rename, Term.rename]

section
variable {E E' : GEnv} (H : GEnv.Renamed ρ E E')
include H

omit H in
theorem Spec.Renaming.orNil : Pddl.mkOr [] = (Pddl.mkOr []).rename ρ := R.mkOr []

theorem Spec.Renaming.preGd {t : Tree} (hl : LooseIn ρ [t]) :
    E'.preGd (t.rename ρ) = (E.preGd t).map (Expr.rename ρ) := by
  rcases t with t | _ | ⟨a, l⟩
  · exact R.gd H _ hl
  · show Except.ok _ = Except.ok _
    rw [← R.orNil]
  · exact R.gd H _ hl

theorem Spec.Renaming.effOpt {t : Tree} (hl : LooseIn ρ [t]) :
    E'.effOpt (t.rename ρ) = (E.effOpt t).map (Expr.rename ρ) := by
  rcases t with t | _ | ⟨a, l⟩
  · exact R.effect H _ hl true
  · show Except.ok _ = Except.ok _
    rw [← R.orNil]
  · exact R.effect H _ hl true

theorem Spec.Renaming.actionPre {l : List Tree} (hl : LooseIn ρ l) :
    Pddl.actionPre E' (Tree.renames ρ l) =
      (Pddl.actionPre E l).map (fun p => (p.1.map (Expr.rename ρ), Tree.renames ρ p.2)) := by
  rcases l with _ | ⟨⟨t⟩ | l, _ | ⟨x, rest⟩⟩
  · rfl
  · cases t <;> rfl
  · cases t with
    | kw k =>
      simp only [Tree.renames, Tree.rename, Tok.rename, Pddl.actionPre]
      split
      · exact map_bind_map (R.preGd H hl.tail.head) (fun e _ => rfl)
      · rfl
    | _ => rfl
  · rfl
  · rfl

omit R H in
theorem actionPre_looseIn {l rest : List Tree} {p : Option Expr} (hl : LooseIn ρ l)
    (h : Pddl.actionPre E l = .ok (p, rest)) : LooseIn ρ rest := by
  unfold Pddl.actionPre at h
  split at h
  · split at h
    · cases hq : E.preGd _ with
      | error e => rw [hq] at h; cases h
      | ok e => rw [hq] at h; cases h; exact hl.tail.tail
    · cases h; exact hl
  · cases h; exact hl

theorem Spec.Renaming.actionEff {l : List Tree} (hl : LooseIn ρ l) :
    Pddl.actionEff E' (Tree.renames ρ l) = (Pddl.actionEff E l).map (Option.map (Expr.rename ρ)) := by
  rcases l with _ | ⟨⟨t⟩ | l, _ | ⟨x, _ | ⟨y, rest⟩⟩⟩
  · rfl
  · cases t <;> rfl
  · cases t with
    | kw k =>
      simp only [Tree.renames, Tree.rename, Tok.rename, Pddl.actionEff]
      exact check_bind_map rfl (fun _ => map_bind_map (R.effOpt H hl.tail.head) (fun e _ => rfl))
    | _ => rfl
  · cases t <;> rfl
  · rfl
  · rfl
  · rfl
end

theorem Spec.Renaming.actionDef (F : FloatOf) (σ : PState) {l : List Tree} (hl : LooseIn ρ l) :
    Pddl.actionDef F (σ.rename ρ) (Tree.renames ρ l) =
      (Pddl.actionDef F σ l).map (fun p => (p.1.rename ρ, p.2.rename ρ)) := by
  rcases l with _ | ⟨⟨t⟩ | l, _ | ⟨⟨u⟩ | l', _ | ⟨⟨v⟩ | ps, body⟩⟩⟩
  · rfl
  · cases t <;> rfl
  · cases t <;> cases u <;> rfl
  · cases t <;> cases u <;> rfl
  · cases t with
    | name n =>
      cases u with
      | kw k =>
        simp only [Tree.renames, Tree.rename, Tok.rename, Pddl.actionDef]
        refine check_bind_map rfl (fun _ => map_bind_map (R.actionParameters hl.tail.tail.body) (fun params _ => ?_))
        have He : GEnv.Renamed ρ (({ σ with params := params } : PState).env F)
            (({ σ.rename ρ with params := params.map (fun p => (ρ p.1, p.2.rename ρ)) } : PState).env F) :=
          R.env F { σ with params := params }
        refine map_bind_map (R.actionPre He hl.tail.tail.tail) (fun p hp => ?_)
        obtain ⟨pre, rest⟩ := p
        refine map_bind_map (R.actionEff He (actionPre_looseIn hl.tail.tail.tail hp)) (fun eff _ => ?_)
        cases pre with
        | none => rfl
        | some p =>
          cases eff with
          | none => rfl
          | some e =>
            have := R.mkAction n (params.map Prod.snd) (some p) (some e)
            rw [List.map_map] at this ⊢
            exact map_bind_map this (fun a _ => rfl)
      | _ => rfl
    | _ => cases u <;> rfl
  · cases t <;> rfl
  · cases t <;> rfl
  · cases t <;> rfl
  · rfl
  · rfl
  · rfl
  · rfl
  · rfl
  · rfl
  · rfl

theorem Spec.Renaming.derivedDef (F : FloatOf) (σ : PState) {l : List Tree} (hl : LooseIn ρ l) :
    Pddl.derivedDef F (σ.rename ρ) (Tree.renames ρ l) = (Pddl.derivedDef F σ l).map (Derived.rename ρ) := by
  rcases l with _ | ⟨h, _ | ⟨c, _ | ⟨x, rest⟩⟩⟩
  · rfl
  · rfl
  · simp only [Tree.renames, Pddl.derivedDef]
    refine map_bind_map (R.formulaSkeleton hl.head) (fun head _ => ?_)
    refine map_bind_map (R.gd (R.env F σ) c hl.tail.head) (fun cond _ => ?_)
    exact R.derivedPredicate σ.types σ.preds head cond
  · rfl

theorem Spec.Renaming.structures (F : FloatOf) (σ : PState) {l : List Tree} (hl : LooseIn ρ l) :
    Pddl.structures F (σ.rename ρ) (Tree.renames ρ l) =
      (Pddl.structures F σ l).map
        (fun p => (p.1.map (Action.rename ρ), p.2.1.map (Derived.rename ρ), p.2.2.rename ρ)) := by
  induction l generalizing σ with
  | nil => rfl
  | cons t ts ih =>
    rcases t with t | _ | ⟨⟨t⟩ | l, body⟩
    · rfl
    · rfl
    · cases t with
      | kw k =>
        simp only [Tree.renames, Tree.rename, Tok.rename, Pddl.structures]
        split
        · refine map_bind_map (R.actionDef F σ hl.body.tail) (fun p _ => ?_)
          exact map_bind_map (ih p.2 hl.tail) (fun q _ => rfl)
        split
        · refine map_bind_map (R.derivedDef F σ hl.body.tail) (fun p _ => ?_)
          exact map_bind_map (ih σ hl.tail) (fun q _ => rfl)
        · rfl
      | _ => rfl
    · rfl

/-! ### Domains -/

theorem Spec.Renaming.header {k : Str} (hk : k ∈ gluing) {l : List Tree} (hl : LooseIn ρ l) :
    Pddl.header k (Tree.renames ρ l) = (Pddl.header k l).map (fun p => (ρ p.1, Tree.renames ρ p.2)) := by
  have hd : s%"define" ∈ gluing := by simp [gluing]
  simp only [Pddl.header, R.dropKeyword hd hl]
  cases h : Pddl.dropKeyword s%"define" l with
  | none => rfl
  | some r =>
    have hr := dropKeyword_looseIn hd hl h
    rcases r with _ | ⟨⟨t⟩ | b, rest⟩
    · rfl
    · rfl
    · simp only [Option.map_some, Tree.renames, Tree.rename, R.dropKeyword hk hr.body]
      rcases Pddl.dropKeyword k b with _ | _ | ⟨⟨t⟩ | l, _ | ⟨x, r⟩⟩
      · rfl
      · rfl
      · cases t <;> rfl
      · cases t <;> rfl
      · rfl
      · rfl

omit R in
theorem header_looseIn {k n : Str} {l rest : List Tree} (hl : LooseIn ρ l)
    (h : Pddl.header k l = .ok (n, rest)) : LooseIn ρ rest := by
  unfold Pddl.header at h
  split at h
  · rename_i b r hd
    split at h
    · cases h
      exact (dropKeyword_looseIn (by simp [gluing]) hl hd).tail
    · cases h
  · cases h

theorem Spec.Renaming.domainDef (F : FloatOf) (σ : PState) {l : List Tree} (hl : LooseIn ρ l) :
    Pddl.domainDef F (σ.rename ρ) (Tree.renames ρ l) =
      (Pddl.domainDef F σ l).map (fun p => (p.1.rename ρ, p.2.rename ρ)) := by
  unfold Pddl.domainDef
  refine map_bind_map (R.header (by simp [gluing]) hl) (fun p hp => ?_)
  obtain ⟨n, ts⟩ := p
  replace hl := header_looseIn hl hp
  simp only [takeSection_rename]
  obtain ⟨h1, hl1⟩ := takeSection_looseIn (k := s%"requirements") hl
  obtain ⟨h2, hl2⟩ := takeSection_looseIn (k := s%"types") hl1
  obtain ⟨h3, hl3⟩ := takeSection_looseIn (k := s%"constants") hl2
  obtain ⟨h4, hl4⟩ := takeSection_looseIn (k := s%"predicates") hl3
  obtain ⟨h5, hl5⟩ := takeSection_looseIn (k := s%"functions") hl4
  refine map_bind_map (g := fun p => (p.1, p.2.rename ρ)) (optSection_map rfl (fun b _ => ?_)) (fun p1 _ => ?_)
  · simp only [Pddl.sectionRequirements, parseRequirements_rename]
    exact map_bind_map (g := id) (by cases parseRequirements b <;> rfl) (fun _ _ => rfl)
  obtain ⟨rs, σ1⟩ := p1
  refine map_bind_map (g := fun p => (renameTypes ρ p.1, p.2.rename ρ))
    (optSection_map rfl (fun b _ => R.sectionTypes σ1 b)) (fun p2 _ => ?_)
  obtain ⟨types, σ2⟩ := p2
  refine map_bind_map (g := fun p => (p.1.map (Term.rename ρ), p.2.rename ρ))
    (optSection_map rfl (fun b _ => R.sectionConstants σ2 b)) (fun p3 _ => ?_)
  obtain ⟨consts, σ3⟩ := p3
  refine map_bind_map (g := fun p => (p.1.map (Pred.rename ρ), p.2.rename ρ))
    (optSection_map rfl (fun b hb => R.sectionPredicates σ3 (h4 b hb))) (fun p4 _ => ?_)
  obtain ⟨preds, σ4⟩ := p4
  refine map_bind_map (g := renameFuns ρ) (optSection_map rfl (fun b hb => R.sectionFunctions (h5 b hb)))
    (fun funs _ => ?_)
  refine map_bind_map (R.structures F σ4 hl5) (fun p6 _ => ?_)
  obtain ⟨as, ds, σ5⟩ := p6
  exact map_bind_map (R.mkDomain ⟨n, rs, types, consts, preds, funs, ds, as⟩) (fun d _ => rfl)

theorem Spec.Renaming.parseDomain (F : FloatOf) (σ : PState) {t t' : Str} (hr : Spec.Renamed ρ t t')
    (hl : LooseText t) (hl' : LooseText t') :
    Pddl.parseDomain F (σ.rename ρ) t' = (Pddl.parseDomain F σ t).map (fun p => (p.1.rename ρ, p.2.rename ρ)) := by
  unfold Pddl.parseDomain
  refine map_bind_map (readText_rename hr) (fun ts hts => ?_)
  have h := readText_loose hr hl hl' hts
  rcases ts with _ | ⟨⟨t⟩ | l, _ | ⟨x, r⟩⟩
  · rfl
  · rfl
  · rfl
  · exact R.domainDef F σ h.node
  · rfl

/-! ### Problems -/

theorem Spec.Renaming.goalEnv (F : FloatOf) : GEnv.Renamed ρ (Pddl.goalEnv F) (Pddl.goalEnv F) :=
  ⟨rfl, rfl, fun n => R.mkConst n none, rfl, fun _ => rfl⟩

theorem Spec.Renaming.initTerm (objs : List (Str × Term)) (n : Str) :
    Pddl.initTerm (objs.map (fun p => (ρ p.1, p.2.rename ρ))) (ρ n) = (Pddl.initTerm objs n).map (Term.rename ρ) := by
  simp only [Pddl.initTerm, dictGet_ren R.inj]
  cases dictGet objs n with
  | none => exact R.mkConst n none
  | some t => rfl

theorem Spec.Renaming.atomicName (objs : List (Str × Term)) (l : List Tree) :
    Pddl.atomicName (objs.map (fun p => (ρ p.1, p.2.rename ρ))) (Tree.renames ρ l) =
      (Pddl.atomicName objs l).map (Expr.rename ρ) := by
  rcases l with _ | ⟨⟨t⟩ | l, args⟩
  · rfl
  · cases t with
    | name p =>
      simp only [Tree.renames, Tree.rename, Tok.rename, Pddl.atomicName, namesOnly_rename]
      cases namesOnly args with
      | none => rfl
      | some ns =>
        simp only [Option.map_some]
        refine map_bind_map (mapM_rename ns (fun n _ => R.initTerm objs n)) (fun ts _ => ?_)
        exact map_bind_map (R.mkPred p ts) (fun q _ => by simp [Expr.rename])
    | _ => rfl
  · rfl

theorem Spec.Renaming.constNames (ns : List Str) :
    (ns.map ρ).mapM (fun n => Pddl.mkConst n none) =
      (ns.mapM (fun n => Pddl.mkConst n none)).map (List.map (Term.rename ρ)) :=
  mapM_rename ns (fun n _ => R.mkConst n none)

theorem Spec.Renaming.basicFunction (t : Tree) :
    Pddl.basicFunction (t.rename ρ) = (Pddl.basicFunction t).map (NFun.rename ρ) := by
  rcases t with t | _ | ⟨⟨t⟩ | l, args⟩
  · cases t with
    | name n => exact R.mkNFun n []
    | _ => rfl
  · rfl
  · cases t with
    | name n =>
      simp only [Tree.rename, Tree.renames, Tok.rename, Pddl.basicFunction, namesOnly_rename]
      cases namesOnly args with
      | none => rfl
      | some ns => exact map_bind_map (R.constNames ns) (fun ts _ => R.mkNFun n ts)
    | _ => rfl
  · rfl

theorem Spec.Renaming.initEl (F : FloatOf) (objs : List (Str × Term)) (t : Tree) :
    Pddl.initEl F (objs.map (fun p => (ρ p.1, p.2.rename ρ))) (t.rename ρ) =
      (Pddl.initEl F objs t).map (Expr.rename ρ) := by
  rcases t with t | _ | ⟨⟨t⟩ | l, args⟩
  · rfl
  · rfl
  · cases t with
    | eq =>
      rcases args with _ | ⟨f, _ | ⟨⟨x⟩ | l, _ | ⟨y, r⟩⟩⟩
      · rfl
      · rfl
      · cases x with
        | num s =>
          simp only [Tree.rename, Tree.renames, Tok.rename, Pddl.initEl]
          refine map_bind_map (R.basicFunction f) (fun f' _ => ?_)
          refine map_bind_map (g := id) (by cases numLiteral F s <;> rfl) (fun n _ => ?_)
          simp [← R.construct, Expr.rename]
        | _ => rfl
      · cases x <;> rfl
      · rfl
      · rfl
    | name w =>
      simp only [Tree.rename, Tree.renames, Tok.rename, Pddl.initEl,
        R.fixed_iff (R.symbol (w := s%"not") (by simp [allSymbols])) (w := w)]
      split
      · rcases args with _ | ⟨⟨x⟩ | a, _ | ⟨y, r⟩⟩ <;> try rfl
        simp only [Tree.renames, Tree.rename]
        exact map_bind_map (R.atomicName objs a) (fun e _ => by simp [Expr.rename])
      · exact R.atomicName objs (.atom (.name w) :: args)
    | _ => rfl
  · rfl

omit R in
theorem metricExps_rename_of {l : List Tree}
    (ih : ∀ t ∈ l, metricExp (t.rename ρ) = (metricExp t).map (Expr.rename ρ)) :
    metricExps (Tree.renames ρ l) = (metricExps l).map (List.map (Expr.rename ρ)) := by
  induction l with
  | nil => simp [Tree.renames, metricExps]
  | cons t ts ihl =>
    simp only [Tree.renames, metricExps]
    exact map_bind_map (ih t (by simp)) (fun e _ =>
      map_bind_map (ihl (fun x hx => ih x (List.mem_cons_of_mem _ hx))) (fun es _ => rfl))

theorem Spec.Renaming.metricExp (t : Tree) :
    Pddl.metricExp (t.rename ρ) = (Pddl.metricExp t).map (Expr.rename ρ) := by
  induction t using Tree.ind with
  | hatom t =>
    cases t with
    | num s => simp [Tree.rename, Tok.rename, Pddl.metricExp, Expr.rename]
    | name n =>
      have := R.basicFunction (.atom (.name n))
      simp only [Tree.rename, Tok.rename, Pddl.metricExp] at this ⊢
      exact map_bind_map this (fun f _ => by simp [Expr.rename])
    | _ => simp [Tree.rename, Tok.rename, Pddl.metricExp]
  | hnode l ih =>
    rcases l with _ | ⟨⟨t⟩ | l, rest⟩
    · simp [Tree.rename, Tree.renames, Pddl.metricExp]
    · have ih' := metricExps_rename_of (fun t ht => ih t (List.mem_cons_of_mem _ ht))
      cases t with
      | name n =>
        have := R.basicFunction (.node (.atom (.name n) :: rest))
        simp only [Tree.rename, Tree.renames, Tok.rename, Pddl.metricExp] at this ⊢
        exact map_bind_map this (fun f _ => by simp [Expr.rename])
      | plus =>
        simp only [Tree.rename, Tree.renames, Tok.rename, Pddl.metricExp, Tree.renames_length]
        exact map_bind_map ih' (fun es _ => check_bind_map rfl (fun _ => by simp [R.construct]))
      | times =>
        simp only [Tree.rename, Tree.renames, Tok.rename, Pddl.metricExp, Tree.renames_length]
        exact map_bind_map ih' (fun es _ => check_bind_map rfl (fun _ => by simp [R.construct]))
      | divide =>
        simp only [Tree.rename, Tree.renames, Tok.rename, Pddl.metricExp, Tree.renames_length]
        exact map_bind_map ih' (fun es _ => check_bind_map rfl (fun _ => by simp [R.construct]))
      | minus =>
        simp only [Tree.rename, Tree.renames, Tok.rename, Pddl.metricExp, Tree.renames_length]
        exact map_bind_map ih' (fun es _ => check_bind_map rfl (fun _ => by simp [R.construct]))
      | _ => simp [Tree.rename, Tree.renames, Tok.rename, Pddl.metricExp]
    · simp [Tree.rename, Tree.renames, Pddl.metricExp]

theorem Spec.Renaming.metricSpec {l : List Tree} (hl : LooseIn ρ l) :
    Pddl.metricSpec (Tree.renames ρ l) = (Pddl.metricSpec l).map (Metric.rename ρ) := by
  simp only [Pddl.metricSpec, R.dropKeyword (k := s%"maximize") (by simp [gluing]) hl,
    R.dropKeyword (k := s%"minimize") (by simp [gluing]) hl]
  rcases Pddl.dropKeyword s%"maximize" l with _ | _ | ⟨a, _ | ⟨b, r⟩⟩
  · rcases Pddl.dropKeyword s%"minimize" l with _ | _ | ⟨a, _ | ⟨b, r⟩⟩
    · rfl
    · rfl
    · exact map_bind_map (R.metricExp a) (fun e _ => rfl)
    · rfl
  · rfl
  · exact map_bind_map (R.metricExp a) (fun e _ => rfl)
  · rfl

omit R in
theorem problemDomain_rename (l : List Tree) :
    problemDomain (Tree.renames ρ l) = (problemDomain l).map (fun p => (ρ p.1, Tree.renames ρ p.2)) := by
  simp only [problemDomain, takeSection_rename]
  rcases takeSection s%"domain" l with ⟨_ | _ | ⟨⟨t⟩ | b, _ | ⟨x, r⟩⟩, rest⟩
  · rfl
  · rfl
  · cases t <;> rfl
  · cases t <;> rfl
  · rfl
  · rfl

omit R in
theorem problemDomain_looseIn {l rest : List Tree} {n : Str} (hl : LooseIn ρ l)
    (h : problemDomain l = .ok (n, rest)) : LooseIn ρ rest := by
  have := (takeSection_looseIn (k := s%"domain") hl).2
  unfold problemDomain at h
  split at h
  · rename_i hq
    cases h
    rw [hq] at this
    exact this
  · cases h

theorem Spec.Renaming.problemObjects (l : List Tree) :
    Pddl.problemObjects (Tree.renames ρ l) =
      (Pddl.problemObjects l).map
        (fun p => (p.1.map (Term.rename ρ), p.2.map (fun p => (ρ p.1, p.2.rename ρ)))) := by
  unfold Pddl.problemObjects
  refine map_bind_map (R.parseTypedNames l) (fun d _ => map_bind_map (R.mkConsts d) (fun cs _ => ?_))
  simp only [dictOf_ren R.inj]
  show Except.ok _ = Except.ok _
  simp [Function.comp_def]

theorem Spec.Renaming.problemInit (F : FloatOf) (σ : List (Str × Term)) (l : List Tree) :
    Pddl.problemInit F (σ.map (fun p => (ρ p.1, p.2.rename ρ))) (Tree.renames ρ l) =
      (Pddl.problemInit F σ l).map (fun p => (p.1.map (Expr.rename ρ), Tree.renames ρ p.2)) := by
  simp only [Pddl.problemInit, takeSection_rename]
  rcases takeSection s%"init" l with ⟨_ | b, rest⟩
  · rfl
  · simp only [Option.map_some]
    rw [Tree.renames_eq ρ b]
    exact map_bind_map (mapM_rename b (fun t _ => R.initEl F σ t)) (fun es _ => rfl)

omit R in
theorem problemInit_looseIn {F : FloatOf} {σ : List (Str × Term)} {l rest : List Tree} {es : List Expr}
    (hl : LooseIn ρ l) (h : Pddl.problemInit F σ l = .ok (es, rest)) : LooseIn ρ rest := by
  have := (takeSection_looseIn (k := s%"init") hl).2
  unfold Pddl.problemInit at h
  split at h
  · rename_i b ts hq
    cases hm : b.mapM (Pddl.initEl F σ) with
    | error e => rw [hm] at h; cases h
    | ok v =>
      rw [hm] at h
      cases h
      rw [hq] at this
      exact this
  · cases h

theorem Spec.Renaming.problemGoal (F : FloatOf) {l : List Tree} (hl : LooseIn ρ l) :
    Pddl.problemGoal F (Tree.renames ρ l) =
      (Pddl.problemGoal F l).map (fun p => (p.1.rename ρ, Tree.renames ρ p.2)) := by
  have := (takeSection_looseIn (k := s%"goal") hl).1
  simp only [Pddl.problemGoal, takeSection_rename]
  rcases h : takeSection s%"goal" l with ⟨_ | _ | ⟨t, _ | ⟨x, r⟩⟩, rest⟩
  · rfl
  · rfl
  · exact map_bind_map (R.gd (R.goalEnv F) t (this _ (by rw [h]))) (fun e _ => rfl)
  · rfl

omit R in
theorem problemGoal_looseIn {F : FloatOf} {l rest : List Tree} {e : Expr}
    (hl : LooseIn ρ l) (h : Pddl.problemGoal F l = .ok (e, rest)) : LooseIn ρ rest := by
  have := (takeSection_looseIn (k := s%"goal") hl).2
  unfold Pddl.problemGoal at h
  split at h
  · rename_i t ts hq
    cases hm : (Pddl.goalEnv F).gd t with
    | error e => rw [hm] at h; cases h
    | ok v =>
      rw [hm] at h
      cases h
      rw [hq] at this
      exact this
  · cases h

theorem Spec.Renaming.problemMetric {l : List Tree} (hl : LooseIn ρ l) :
    Pddl.problemMetric (Tree.renames ρ l) = (Pddl.problemMetric l).map (Option.map (Metric.rename ρ)) := by
  cases l with
  | nil => rfl
  | cons a l =>
    have h1 := (takeSection_looseIn (k := s%"metric") hl).1
    have h2 := takeSection_rename (ρ := ρ) s%"metric" (a :: l)
    simp only [Tree.renames] at h2
    simp only [Tree.renames, Pddl.problemMetric, h2]
    rcases h : takeSection s%"metric" (a :: l) with ⟨_ | b, _ | ⟨x, rest⟩⟩
    · rfl
    · rfl
    · simp only [Option.map_some, Tree.renames]
      exact map_bind_map (R.metricSpec (h1 b (by rw [h]))) (fun e _ => rfl)
    · rfl

omit R in
theorem isLiteral_rename (e : Expr) : isLiteral (e.rename ρ) = isLiteral e := by
  have ha : ∀ e : Expr, (e.rename ρ).isAtomic = e.isAtomic := by
    intro e; cases e <;> simp [Expr.rename, Expr.isAtomic]
  cases e with
  | not a => simpa [Expr.rename, isLiteral] using ha a
  | _ => simp [Expr.rename, isLiteral, Expr.isAtomic]

theorem Spec.Renaming.mkProblem (n dn : Str) (rs : Option (List Req)) (objs : List Term) (init : List Expr) (goal : Expr)
    (m : Option Metric) :
    Pddl.mkProblem ⟨ρ n, none, some (ρ dn), rs, objs.map (Term.rename ρ), init.map (Expr.rename ρ),
      some (goal.rename ρ), m.map (Metric.rename ρ)⟩ =
      (Pddl.mkProblem ⟨n, none, some dn, rs, objs, init, some goal, m⟩).map (Problem.rename ρ) := by
  unfold Pddl.mkProblem
  simp only [dedupBy_ren R.termEq, dedupBy_ren R.exprEq]
  refine map_bind_map (R.parseName n) (fun n' _ => ?_)
  refine map_bind_map (R.parseName dn) (fun dn' _ => ?_)
  refine map_bind_map (g := id) (by cases parseReqs none rs <;> rfl) (fun rs' _ => ?_)
  refine check_bind_map ?_ (fun _ => rfl)
  rw [List.all_map]
  congr 1
  funext e
  exact isLiteral_rename e

theorem Spec.Renaming.problemDef (F : FloatOf) (σ : List (Str × Term)) {l : List Tree} (hl : LooseIn ρ l) :
    Pddl.problemDef F (σ.map (fun p => (ρ p.1, p.2.rename ρ))) (Tree.renames ρ l) =
      (Pddl.problemDef F σ l).map (fun p => (p.1.rename ρ, p.2.map (fun p => (ρ p.1, p.2.rename ρ)))) := by
  unfold Pddl.problemDef
  refine map_bind_map (R.header (by simp [gluing]) hl) (fun p hp => ?_)
  obtain ⟨n, ts⟩ := p
  replace hl := header_looseIn hl hp
  refine map_bind_map (problemDomain_rename ts) (fun p hp => ?_)
  obtain ⟨dn, ts⟩ := p
  replace hl := problemDomain_looseIn hl hp
  simp only [takeSection_rename]
  obtain ⟨h1, hl1⟩ := takeSection_looseIn (k := s%"requirements") hl
  obtain ⟨h2, hl2⟩ := takeSection_looseIn (k := s%"objects") hl1
  refine map_bind_map (g := id) (optSection_map rfl (fun b _ => ?_)) (fun rs _ => ?_)
  · simp only [problemRequirements, parseRequirements_rename]
    cases parseRequirements b <;> rfl
  refine map_bind_map (g := fun p => (p.1.map (Term.rename ρ), p.2.map (fun p => (ρ p.1, p.2.rename ρ))))
    (optSection_map rfl (fun b _ => R.problemObjects b)) (fun p1 _ => ?_)
  obtain ⟨objs, σ1⟩ := p1
  refine map_bind_map (R.problemInit F σ1 _) (fun p hp => ?_)
  obtain ⟨init, ts⟩ := p
  replace hl := problemInit_looseIn hl2 hp
  refine map_bind_map (R.problemGoal F hl) (fun p hp => ?_)
  obtain ⟨goal, ts⟩ := p
  replace hl := problemGoal_looseIn hl hp
  refine map_bind_map (R.problemMetric hl) (fun m _ => ?_)
  exact map_bind_map (R.mkProblem n dn rs objs init goal m) (fun p _ => rfl)

theorem Spec.Renaming.parseProblem (F : FloatOf) (σ : List (Str × Term)) {t t' : Str} (hr : Spec.Renamed ρ t t')
    (hl : LooseText t) (hl' : LooseText t') :
    Pddl.parseProblem F (σ.map (fun p => (ρ p.1, p.2.rename ρ))) t' =
      (Pddl.parseProblem F σ t).map (fun p => (p.1.rename ρ, p.2.map (fun p => (ρ p.1, p.2.rename ρ)))) := by
  unfold Pddl.parseProblem
  refine map_bind_map (readText_rename hr) (fun ts hts => ?_)
  have h := readText_loose hr hl hl' hts
  rcases ts with _ | ⟨⟨t⟩ | l, _ | ⟨x, r⟩⟩
  · rfl
  · rfl
  · rfl
  · exact R.problemDef F σ h.node
  · rfl

/-! ### Plans -/

theorem Spec.Renaming.groundAction (t : Tree) :
    Pddl.groundAction (t.rename ρ) = (Pddl.groundAction t).map (fun s => (ρ s.1, s.2.map (Term.rename ρ))) := by
  rcases t with t | _ | ⟨⟨t⟩ | l, args⟩
  · rfl
  · rfl
  · cases t with
    | name n =>
      simp only [Tree.rename, Tree.renames, Tok.rename, Pddl.groundAction, namesOnly_rename]
      cases namesOnly args with
      | none => rfl
      | some ns => exact map_bind_map (R.constNames ns) (fun ts _ => rfl)
    | _ => rfl
  · rfl

theorem Spec.Renaming.parsePlan {t t' : Str} (hr : Spec.Renamed ρ t t') :
    Pddl.parsePlan t' = (Pddl.parsePlan t).map (Plan.rename ρ) := by
  unfold Pddl.parsePlan
  refine map_bind_map (readText_rename hr) (fun ts _ => ?_)
  rw [Tree.renames_eq]
  exact map_bind_map (mapM_rename ts (fun t _ => R.groundAction t)) (fun s _ => rfl)

/-! ### What is done with them -/

theorem Spec.Renaming.schemas (d : Domain) :
    (d.rename ρ).schemas = d.schemas.map (fun p => (ρ p.1, p.2.rename ρ)) := by
  unfold Domain.schemas
  rw [← dictOf_ren R.inj]
  simp [Domain.rename, Function.comp_def, Action.rename]

theorem Spec.Renaming.planInst (p : Plan) (d : Domain) :
    (p.rename ρ).inst (d.rename ρ) = (p.inst d).map (List.map (Action.rename ρ)) := by
  unfold Plan.inst
  rw [R.schemas]
  obtain ⟨steps⟩ := p
  simp only [Plan.rename]
  induction steps with
  | nil => rfl
  | cons s steps ih =>
    obtain ⟨n, args⟩ := s
    simp only [List.map_cons, instSteps, dictGet_ren R.inj]
    cases dictGet d.schemas n with
    | none => rfl
    | some a => exact map_bind_map (R.actionInst a args) (fun g _ => map_bind_map ih (fun gs _ => rfl))

theorem Spec.Renaming.planCheck (p : Plan) (d : Domain) (pr : Problem) :
    (p.rename ρ).check (d.rename ρ) (pr.rename ρ) = p.check d pr := by
  unfold Plan.check
  rw [R.schemas]
  have h1 : (d.rename ρ).actions.map Action.name = (d.actions.map Action.name).map ρ := by
    simp [Domain.rename, Function.comp_def, Action.rename]
  have h2 : dedupBy Term.pyEq ((pr.rename ρ).objects ++ (d.rename ρ).constants) =
      (dedupBy Term.pyEq (pr.objects ++ d.constants)).map (Term.rename ρ) := by
    rw [← dedupBy_ren R.termEq]
    simp [Domain.rename, Problem.rename]
  rw [h1, h2]
  obtain ⟨steps⟩ := p
  simp only [Plan.rename]
  induction steps with
  | nil => rfl
  | cons s steps ih =>
    obtain ⟨n, args⟩ := s
    simp only [List.map_cons, checkSteps, dictGet_ren R.inj, R.mem_map, ih]
    cases dictGet d.schemas n with
    | none => rfl
    | some a =>
      have h3 : (args.map (Term.rename ρ)).all
          (fun t => memBy Term.pyEq t ((dedupBy Term.pyEq (pr.objects ++ d.constants)).map (Term.rename ρ))) =
          args.all (fun t => memBy Term.pyEq t (dedupBy Term.pyEq (pr.objects ++ d.constants))) := by
        rw [List.all_map]; congr 1; funext t; exact memBy_ren R.termEq t _
      simp only [Option.map_some, h3, Action.rename, List.length_map]

end
end Pddl
