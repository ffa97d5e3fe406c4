/-
Renaming: reading formulas and effects.
-/
import Verif.Proofs.RenameTyped
import Verif.Proofs.ParseRel

namespace Pddl
open Spec

/-- `E'` is what formulas are read with after renaming. -/
structure GEnv.Renamed (ρ : Str → Str) (E E' : GEnv) : Prop where
  float : E'.float = E.float
  ext : E'.ext = E.ext
  constant : ∀ n, E'.constant (ρ n) = (E.constant n).map (Term.rename ρ)
  params : E'.params = E.params.map (fun p => (ρ p.1, p.2.rename ρ))
  typedVars : ∀ toks, E'.typedVars (toks.map (TTok.rename ρ)) =
    (E.typedVars toks).map (List.map (fun p => (ρ p.1, p.2.map ρ)))

theorem Tree.renames_length (ρ : Str → Str) (l : List Tree) : (Tree.renames ρ l).length = l.length := by
  rw [Tree.renames_eq, List.length_map]

section
variable {ρ : Str → Str} (R : Renaming ρ) {E E' : GEnv} (H : GEnv.Renamed ρ E E')
include R H

theorem Spec.Renaming.readVar (n : Str) : E'.variable (ρ n) = (E.variable n).map (Term.rename ρ) := by
  unfold GEnv.variable
  rw [H.params, dictGet_ren R.inj]
  cases dictGet E.params n with
  | some t => rfl
  | none => exact map_bind_map (R.mkVar n []) (fun v _ => rfl)

theorem Spec.Renaming.terms (ts : List Tree) :
    E'.terms (Tree.renames ρ ts) = (E.terms ts).map (List.map (Term.rename ρ)) := by
  induction ts using GEnv.terms.induct with
  | case1 => simp [Tree.renames, GEnv.terms]
  | case2 n ts ih =>
    simp only [Tree.renames, Tree.rename, Tok.rename, GEnv.terms]
    exact map_bind_map (H.constant n) (fun t _ => map_bind_map ih (fun r _ => rfl))
  | case3 n ts ih =>
    simp only [Tree.renames, Tree.rename, Tok.rename, GEnv.terms]
    exact map_bind_map (R.readVar H n) (fun t _ => map_bind_map ih (fun r _ => rfl))
  | case4 ts h1 h2 h3 =>
    rcases ts with _ | ⟨⟨t⟩ | l, rest⟩
    · exact absurd rfl h1
    · cases t with
      | name w => exact absurd rfl (h2 w rest)
      | qmark =>
        rcases rest with _ | ⟨⟨t⟩ | l, rest⟩
        · rfl
        · cases t <;> first | rfl | exact absurd rfl (h3 _ rest)
        · rfl
      | _ => rfl
    · rfl

omit R in
theorem hasAny_rename (rs : List Req) : E'.hasAny rs = E.hasAny rs := by
  unfold GEnv.hasAny; rw [H.ext]

theorem Spec.Renaming.fHead (t : Tree) : E'.fHead (t.rename ρ) = (E.fHead t).map (NFun.rename ρ) := by
  rcases t with t | _ | ⟨⟨t⟩ | l, rest⟩
  · cases t with
    | name n => exact R.mkNFun n []
    | _ => rfl
  · rfl
  · cases t with
    | name n =>
      simp only [Tree.rename, Tree.renames, Tok.rename, GEnv.fHead]
      exact map_bind_map (R.terms H rest) (fun ts _ => R.mkNFun n ts)
    | _ => rfl
  · rfl

omit R H in
theorem fExps_rename_of {l : List Tree}
    (ih : ∀ t ∈ l, E'.fExp (t.rename ρ) = (E.fExp t).map (Expr.rename ρ)) :
    E'.fExps (Tree.renames ρ l) = (E.fExps l).map (List.map (Expr.rename ρ)) := by
  induction l with
  | nil => simp [Tree.renames, GEnv.fExps]
  | cons t ts ihl =>
    simp only [Tree.renames, GEnv.fExps]
    exact map_bind_map (ih t (by simp)) (fun e _ =>
      map_bind_map (ihl (fun x hx => ih x (List.mem_cons_of_mem _ hx))) (fun es _ => rfl))

theorem Spec.Renaming.fExp (t : Tree) : E'.fExp (t.rename ρ) = (E.fExp t).map (Expr.rename ρ) := by
  induction t using Tree.ind with
  | hatom t =>
    cases t with
    | num s =>
      simp only [Tree.rename, Tok.rename, GEnv.fExp, H.float]
      exact map_bind_map (g := id) (by cases numLiteral E.float s <;> rfl) (fun n _ => rfl)
    | name n =>
      have := R.fHead H (.atom (.name n))
      simp only [Tree.rename, Tok.rename, GEnv.fExp] at this ⊢
      exact map_bind_map this (fun f _ => by simp [Expr.rename])
    | _ => simp [Tree.rename, Tok.rename, GEnv.fExp]
  | hnode l ih =>
    rcases l with _ | ⟨⟨t⟩ | l, rest⟩
    · simp [Tree.rename, Tree.renames, GEnv.fExp]
    · have ih' := fExps_rename_of (fun t ht => ih t (List.mem_cons_of_mem _ ht))
      cases t with
      | name n =>
        have := R.fHead H (.node (.atom (.name n) :: rest))
        simp only [Tree.rename, Tree.renames, Tok.rename, GEnv.fExp] at this ⊢
        exact map_bind_map this (fun f _ => by simp [Expr.rename])
      | plus =>
        simp only [Tree.rename, Tree.renames, Tok.rename, GEnv.fExp, Tree.renames_length]
        exact map_bind_map ih' (fun es _ => check_bind_map rfl (fun _ => by simp [R.construct]))
      | times =>
        simp only [Tree.rename, Tree.renames, Tok.rename, GEnv.fExp, Tree.renames_length]
        exact map_bind_map ih' (fun es _ => check_bind_map rfl (fun _ => by simp [R.construct]))
      | divide =>
        simp only [Tree.rename, Tree.renames, Tok.rename, GEnv.fExp, Tree.renames_length]
        exact map_bind_map ih' (fun es _ => check_bind_map rfl (fun _ => by simp [R.construct]))
      | minus =>
        simp only [Tree.rename, Tree.renames, Tok.rename, GEnv.fExp, Tree.renames_length]
        exact map_bind_map ih' (fun es _ => check_bind_map rfl (fun _ => by simp [R.construct]))
      | _ => simp [Tree.rename, Tree.renames, Tok.rename, GEnv.fExp]
    · simp [Tree.rename, Tree.renames, GEnv.fExp]

theorem Spec.Renaming.fExps (l : List Tree) :
    E'.fExps (Tree.renames ρ l) = (E.fExps l).map (List.map (Expr.rename ρ)) :=
  fExps_rename_of (fun t _ => R.fExp H t)

theorem Spec.Renaming.atomic (l : List Tree) :
    E'.atomic (Tree.renames ρ l) = (E.atomic l).map (Expr.rename ρ) := by
  rcases l with _ | ⟨⟨t⟩ | l, rest⟩
  · rfl
  · cases t with
    | eq =>
      simp only [Tree.renames, Tree.rename, Tok.rename, GEnv.atomic]
      refine map_bind_map (R.terms H rest) (fun ts _ => ?_)
      rcases ts with _ | ⟨a, _ | ⟨b, _ | ⟨c, ts⟩⟩⟩
      · rfl
      · rfl
      · simp only [List.map_cons, List.map_nil, hasAny_rename H]
        exact check_bind_map rfl (fun _ => R.mkEq a b)
      · rfl
    | name n =>
      simp only [Tree.renames, Tree.rename, Tok.rename, GEnv.atomic]
      refine map_bind_map (R.terms H rest) (fun ts _ => ?_)
      exact map_bind_map (R.mkPred n ts) (fun p _ => by simp [Expr.rename])
    | _ => rfl
  · rfl

omit R H in
theorem startsWithTerm_rename (l : List Tree) : startsWithTerm (Tree.renames ρ l) = startsWithTerm l := by
  rcases l with _ | ⟨⟨t⟩ | l, rest⟩
  · rfl
  · cases t <;> rfl
  · rfl

theorem Spec.Renaming.comparison (op : FOp) (l : List Tree) :
    E'.comparison op (Tree.renames ρ l) = (E.comparison op l).map (Expr.rename ρ) := by
  simp only [GEnv.comparison, Tree.renames_length]
  exact map_bind_map (R.fExps H l) (fun es _ => check_bind_map rfl (fun _ => by simp [R.construct]))

theorem Spec.Renaming.quantifier (q : QOp) (r : Req) {vs : List Tree} (hl : LooseIn ρ vs) {c c' : Except Exc Expr}
    (hc : c' = c.map (Expr.rename ρ)) :
    E'.quantifier q r (Tree.renames ρ vs) c' = (E.quantifier q r vs c).map (Expr.rename ρ) := by
  simp only [GEnv.quantifier, R.typedVarToks false hl, hasAny_rename H]
  cases Pddl.typedVarToks false vs with
  | none => rfl
  | some toks =>
    simp only [Option.map_some]
    refine map_bind_map (H.typedVars toks) (fun l _ => map_bind_map hc (fun e _ => check_bind_map rfl (fun _ => ?_)))
    exact map_bind_map (R.mkVars l) (fun vs _ => by simp [R.mkQuant])

omit R H in
theorem gds_rename_of {l : List Tree} (hl : LooseIn ρ l)
    (ih : ∀ t ∈ l, LooseIn ρ [t] → E'.gd (t.rename ρ) = (E.gd t).map (Expr.rename ρ)) :
    E'.gds (Tree.renames ρ l) = (E.gds l).map (List.map (Expr.rename ρ)) := by
  induction l with
  | nil => simp [Tree.renames, GEnv.gds]
  | cons t ts ihl =>
    simp only [Tree.renames, GEnv.gds]
    exact map_bind_map (ih t (by simp) hl.head) (fun e _ =>
      map_bind_map (ihl hl.tail (fun x hx => ih x (List.mem_cons_of_mem _ hx))) (fun es _ => rfl))

theorem Spec.Renaming.gd (t : Tree) (hl : LooseIn ρ [t]) :
    E'.gd (t.rename ρ) = (E.gd t).map (Expr.rename ρ) := by
  induction t using Tree.ind with
  | hatom t => simp [Tree.rename, GEnv.gd]
  | hnode l ih =>
    replace hl := hl.node
    rcases l with _ | ⟨⟨t⟩ | l, args⟩
    · simp [Tree.rename, Tree.renames, GEnv.gd]
    · have iha : ∀ t ∈ args, LooseIn ρ [t] → E'.gd (t.rename ρ) = (E.gd t).map (Expr.rename ρ) :=
        fun t ht => ih t (List.mem_cons_of_mem _ ht)
      have ih' := gds_rename_of hl.tail iha
      have hla := hl.tail
      cases t with
      | name w =>
        have k : ∀ k : Str, k ∈ allSymbols → (ρ w = k ↔ w = k) := fun k h => R.fixed_iff (R.symbol h)
        simp only [Tree.rename, Tree.renames, Tok.rename]
        rw [GEnv.gd.eq_def E', GEnv.gd.eq_def E]
        simp only [k s%"and" (by simp [allSymbols]), k s%"or" (by simp [allSymbols]),
          k s%"not" (by simp [allSymbols]), k s%"imply" (by simp [allSymbols]),
          k s%"forall" (by simp [allSymbols]), k s%"exists" (by simp [allSymbols])]
        by_cases h1 : w = s%"and"
        · rw [if_pos h1, if_pos h1]
          exact map_bind_map ih' (fun es _ => by simp [R.mkAnd])
        rw [if_neg h1, if_neg h1]
        by_cases h2 : w = s%"or"
        · rw [if_pos h2, if_pos h2]
          rw [hasAny_rename H]
          exact map_bind_map ih' (fun es _ => check_bind_map rfl (fun _ => by simp [R.mkOr]))
        rw [if_neg h2, if_neg h2]
        by_cases h3 : w = s%"not"
        · rw [if_pos h3, if_pos h3]
          rcases args with _ | ⟨a, _ | ⟨b, rest⟩⟩
          · rfl
          · exact map_bind_map (iha a (by simp) hla.head) (fun e _ => by simp [Expr.rename])
          · rfl
        rw [if_neg h3, if_neg h3]
        by_cases h4 : w = s%"imply"
        · rw [if_pos h4, if_pos h4, hasAny_rename H]
          rcases args with _ | ⟨a, _ | ⟨b, _ | ⟨c, rest⟩⟩⟩
          · rfl
          · rfl
          · exact map_bind_map (iha a (by simp) hla.head) (fun e _ =>
              map_bind_map (iha b (by simp) hla.tail.head) (fun e' _ => check_bind_map rfl (fun _ => by
                simp [← R.construct])))
          · rfl
        rw [if_neg h4, if_neg h4]
        by_cases h5 : w = s%"forall"
        · rw [if_pos h5, if_pos h5]
          rcases args with _ | ⟨⟨a⟩ | vs, _ | ⟨b, _ | ⟨c, rest⟩⟩⟩ <;> try rfl
          exact R.quantifier H _ _ hla.body (iha b (by simp) hla.tail.head)
        rw [if_neg h5, if_neg h5]
        by_cases h6 : w = s%"exists"
        · rw [if_pos h6, if_pos h6]
          rcases args with _ | ⟨⟨a⟩ | vs, _ | ⟨b, _ | ⟨c, rest⟩⟩⟩ <;> try rfl
          exact R.quantifier H _ _ hla.body (iha b (by simp) hla.tail.head)
        rw [if_neg h6, if_neg h6]
        exact R.atomic H (.atom (.name w) :: args)
      | eq =>
        simp only [Tree.rename, Tree.renames, Tok.rename, GEnv.gd, compOp, startsWithTerm_rename]
        split
        · exact R.atomic H (.atom .eq :: args)
        · exact R.comparison H .eq args
      | ge => simpa [Tree.rename, Tree.renames, Tok.rename, GEnv.gd, compOp] using R.comparison H .ge args
      | gt => simpa [Tree.rename, Tree.renames, Tok.rename, GEnv.gd, compOp] using R.comparison H .gt args
      | le => simpa [Tree.rename, Tree.renames, Tok.rename, GEnv.gd, compOp] using R.comparison H .le args
      | lt => simpa [Tree.rename, Tree.renames, Tok.rename, GEnv.gd, compOp] using R.comparison H .lt args
      | _ => simp [Tree.rename, Tree.renames, Tok.rename, GEnv.gd, compOp]
    · simp [Tree.rename, Tree.renames, GEnv.gd]

omit H in
theorem Spec.Renaming.assignOp (w : Str) : Pddl.assignOp (ρ w) = Pddl.assignOp w := by
  have k : ∀ k : Str, k ∈ allSymbols → (ρ w = k ↔ w = k) := fun k h => R.fixed_iff (R.symbol h)
  simp only [Pddl.assignOp, k s%"assign" (by simp [allSymbols]), k s%"scale-up" (by simp [allSymbols]),
    k s%"scale-down" (by simp [allSymbols]), k s%"increase" (by simp [allSymbols]),
    k s%"decrease" (by simp [allSymbols])]

theorem Spec.Renaming.pEffect (t : Tree) : E'.pEffect (t.rename ρ) = (E.pEffect t).map (Expr.rename ρ) := by
  rcases t with t | _ | ⟨⟨t⟩ | l, args⟩
  · simp [Tree.rename, GEnv.pEffect]
  · rfl
  · cases t with
    | name w =>
      have k : ∀ k : Str, k ∈ allSymbols → (ρ w = k ↔ w = k) := fun k h => R.fixed_iff (R.symbol h)
      simp only [Tree.rename, Tree.renames, Tok.rename, GEnv.pEffect, k s%"not" (by simp [allSymbols]), R.assignOp]
      split
      · rcases args with _ | ⟨⟨a⟩ | vs, _ | ⟨b, rest⟩⟩ <;> try rfl
        simp only [Tree.renames, Tree.rename]
        exact map_bind_map (R.atomic H vs) (fun e _ => by simp [Expr.rename])
      · cases Pddl.assignOp w with
        | none => exact R.atomic H (.atom (.name w) :: args)
        | some op =>
          rcases args with _ | ⟨a, _ | ⟨b, _ | ⟨c, rest⟩⟩⟩ <;> try rfl
          simp only [Tree.renames]
          exact map_bind_map (R.fHead H a) (fun f _ => map_bind_map (R.fExp H b) (fun e _ => by
            simp [← R.construct, Expr.rename]))
    | eq => exact R.atomic H (.atom .eq :: args)
    | _ => rfl
  · rfl

theorem Spec.Renaming.pEffects (l : List Tree) :
    E'.pEffects (Tree.renames ρ l) = (E.pEffects l).map (List.map (Expr.rename ρ)) := by
  induction l with
  | nil => simp [Tree.renames, GEnv.pEffects]
  | cons t ts ihl =>
    simp only [Tree.renames, GEnv.pEffects]
    exact map_bind_map (R.pEffect H t) (fun e _ => map_bind_map ihl (fun es _ => rfl))

theorem Spec.Renaming.condEffect (t : Tree) :
    E'.condEffect (t.rename ρ) = (E.condEffect t).map (Expr.rename ρ) := by
  have hp := R.pEffect H t
  rcases t with t | _ | ⟨⟨t⟩ | l, args⟩
  · exact hp
  · exact hp
  · cases t with
    | name w =>
      simp only [Tree.rename, Tree.renames, Tok.rename, GEnv.condEffect,
        R.fixed_iff (R.symbol (w := s%"and") (by simp [allSymbols])) (w := w)]
      split
      · exact map_bind_map (R.pEffects H args) (fun es _ => by simp [R.mkAnd])
      · exact hp
    | _ => exact hp
  · exact hp

omit R H in
theorem effects_rename_of {l : List Tree} (hl : LooseIn ρ l)
    (ih : ∀ t ∈ l, LooseIn ρ [t] → ∀ b, E'.effect b (t.rename ρ) = (E.effect b t).map (Expr.rename ρ)) (b : Bool) :
    E'.effects b (Tree.renames ρ l) = (E.effects b l).map (List.map (Expr.rename ρ)) := by
  induction l with
  | nil => simp [Tree.renames, GEnv.effects]
  | cons t ts ihl =>
    simp only [Tree.renames, GEnv.effects]
    exact map_bind_map (ih t (by simp) hl.head b) (fun e _ =>
      map_bind_map (ihl hl.tail (fun x hx => ih x (List.mem_cons_of_mem _ hx))) (fun es _ => rfl))

theorem Spec.Renaming.effect (t : Tree) (hl : LooseIn ρ [t]) (b : Bool) :
    E'.effect b (t.rename ρ) = (E.effect b t).map (Expr.rename ρ) := by
  induction t using Tree.ind generalizing b with
  | hatom t =>
    have hp := R.pEffect H (.atom t)
    simpa only [Tree.rename, GEnv.effect] using hp
  | hnode l ih =>
    have hp := R.pEffect H (.node l)
    replace hl := hl.node
    rcases l with _ | ⟨⟨t⟩ | l, args⟩
    · simpa only [Tree.rename, Tree.renames, GEnv.effect] using hp
    · have iha : ∀ t ∈ args, LooseIn ρ [t] → ∀ b, E'.effect b (t.rename ρ) = (E.effect b t).map (Expr.rename ρ) :=
        fun t ht => ih t (List.mem_cons_of_mem _ ht)
      have ih' := effects_rename_of hl.tail iha
      have hla := hl.tail
      cases t with
      | name w =>
        have k : ∀ k : Str, k ∈ allSymbols → (ρ w = k ↔ w = k) := fun k h => R.fixed_iff (R.symbol h)
        simp only [Tree.rename, Tree.renames, Tok.rename]
        rw [GEnv.effect.eq_def E', GEnv.effect.eq_def E]
        simp only [k s%"and" (by simp [allSymbols]), k s%"when" (by simp [allSymbols]),
          k s%"forall" (by simp [allSymbols]), k s%"oneof" (by simp [allSymbols])]
        by_cases h1 : b = true ∧ w = s%"and"
        · rw [if_pos h1, if_pos h1]
          exact map_bind_map (ih' false) (fun es _ => by simp [R.mkAnd])
        rw [if_neg h1, if_neg h1]
        by_cases h2 : w = s%"forall"
        · rw [if_pos h2, if_pos h2]
          rcases args with _ | ⟨⟨a⟩ | vs, _ | ⟨e, _ | ⟨c, rest⟩⟩⟩ <;> try rfl
          simp only [Tree.renames, Tree.rename, R.typedVarToks false hla.body]
          cases Pddl.typedVarToks false vs with
          | none => rfl
          | some toks =>
            simp only [Option.map_some]
            exact map_bind_map (H.typedVars toks) (fun l _ => map_bind_map (iha e (by simp) hla.tail.head true)
              (fun e' _ => map_bind_map (R.mkVars l) (fun vs _ => by simp [R.mkForall])))
        rw [if_neg h2, if_neg h2]
        by_cases h3 : w = s%"when"
        · rw [if_pos h3, if_pos h3]
          rcases args with _ | ⟨a, _ | ⟨b, _ | ⟨c, rest⟩⟩⟩ <;> try rfl
          simp only [Tree.renames]
          exact map_bind_map (R.gd H a hla.head) (fun c _ => map_bind_map (R.condEffect H b) (fun e _ => by
            simp [Expr.rename]))
        rw [if_neg h3, if_neg h3]
        by_cases h4 : w = s%"oneof"
        · rw [if_pos h4, if_pos h4, hasAny_rename H, Tree.renames_length]
          exact map_bind_map (ih' true) (fun es _ => check_bind_map rfl (fun _ => check_bind_map rfl (fun _ => by
            simp [R.construct])))
        rw [if_neg h4, if_neg h4]
        exact hp
      | _ => simpa only [Tree.rename, Tree.renames, Tok.rename, GEnv.effect] using hp
    · simpa only [Tree.rename, Tree.renames, GEnv.effect] using hp

end
end Pddl
