/-
Renaming: names, terms, sets and dictionaries.
-/
import Verif.Spec.Rename
import Verif.Proofs.Names
import Verif.Proofs.Basic

namespace Pddl
open Spec

/-! ### Outcomes -/

@[simp] theorem Except.map_ok' {α β : Type} (f : α → β) (a : α) :
    Except.map f (.ok a : Except Exc α) = .ok (f a) := rfl
@[simp] theorem Except.map_error' {α β : Type} (f : α → β) (e : Exc) :
    Except.map f (.error e : Except Exc α) = .error e := rfl

theorem map_bind_map {α α' β β' : Type} {x : Except Exc α} {x' : Except Exc α'} {g : α → α'} {h : β → β'}
    {k : α → Except Exc β} {k' : α' → Except Exc β'}
    (hx : x' = x.map g) (hk : ∀ a, x = .ok a → k' (g a) = (k a).map h) : (x' >>= k') = (x >>= k).map h := by
  subst hx
  cases x with
  | error e => rfl
  | ok a => exact hk a rfl

theorem check_bind_map {β β' : Type} {c c' : Bool} {e : Exc} {h : β → β'}
    {k : Unit → Except Exc β} {k' : Unit → Except Exc β'} (hc : c' = c) (hk : c = true → k' () = (k ()).map h) :
    (check c' e >>= k') = (check c e >>= k).map h := by
  subst hc
  cases c' with
  | false => rfl
  | true => exact hk rfl

theorem mapM_rename {α α' β β' : Type} {f : α → Except Exc β} {f' : α' → Except Exc β'} {g : α → α'} {h : β → β'}
    (l : List α) (H : ∀ a ∈ l, f' (g a) = (f a).map h) :
    (l.map g).mapM f' = (l.mapM f).map (List.map h) := by
  induction l with
  | nil => rfl
  | cons a l ih =>
    rw [List.map_cons, List.mapM_cons, List.mapM_cons, H a (by simp)]
    refine map_bind_map rfl (fun b _ => ?_)
    rw [ih (fun x hx => H x (List.mem_cons_of_mem _ hx))]
    exact map_bind_map rfl (fun b _ => rfl)

/-! ### Sets and dictionaries -/

section sets
variable {α α' : Type} {eq : α → α → Bool} {eq' : α' → α' → Bool} {g : α → α'}

theorem memBy_ren (H : ∀ a b, eq' (g a) (g b) = eq a b) (x : α) (l : List α) :
    memBy eq' (g x) (l.map g) = memBy eq x l := by
  simp [memBy, List.any_map, Function.comp_def, H]

theorem dedupAux_ren (H : ∀ a b, eq' (g a) (g b) = eq a b) (l seen : List α) :
    dedupAux eq' (seen.map g) (l.map g) = (dedupAux eq seen l).map g := by
  induction l generalizing seen with
  | nil => rfl
  | cons x l ih =>
    simp only [List.map_cons, dedupAux, memBy_ren H]
    split
    · exact ih seen
    · rw [List.map_cons, ← ih (seen ++ [x])]; simp

theorem dedupBy_ren (H : ∀ a b, eq' (g a) (g b) = eq a b) (l : List α) :
    dedupBy eq' (l.map g) = (dedupBy eq l).map g := dedupAux_ren H l []

theorem setEqBy_ren (H : ∀ a b, eq' (g a) (g b) = eq a b) (a b : List α) :
    setEqBy eq' (a.map g) (b.map g) = setEqBy eq a b := by
  simp [setEqBy, List.all_map, Function.comp_def, memBy_ren H]
end sets

section dicts
variable {ρ : Str → Str} {β γ : Type} {g : β → γ}

theorem dictGet_ren (hi : ∀ a b, ρ a = ρ b → a = b) (d : List (Str × β)) (k : Str) :
    dictGet (d.map (fun p => (ρ p.1, g p.2))) (ρ k) = (dictGet d k).map g := by
  induction d with
  | nil => rfl
  | cons p d ih =>
    unfold dictGet at ih ⊢
    rw [List.map_cons, List.lookup_cons, List.lookup_cons]
    by_cases h : k = p.1
    · subst h; simp
    · have : ρ k ≠ ρ p.1 := fun e => h (hi _ _ e)
      simp [h, this, ih, beq_eq_false_iff_ne.2 h, beq_eq_false_iff_ne.2 this]

theorem dictHas_ren (hi : ∀ a b, ρ a = ρ b → a = b) (d : List (Str × β)) (k : Str) :
    dictHas (d.map (fun p => (ρ p.1, g p.2))) (ρ k) = dictHas d k := by
  simp only [dictHas, List.any_map, Function.comp_def]
  congr 1; funext p
  simp only [decide_eq_decide]
  exact ⟨hi _ _, fun e => e ▸ rfl⟩

theorem dictSet_ren (hi : ∀ a b, ρ a = ρ b → a = b) (d : List (Str × β)) (k : Str) (v : β) :
    dictSet (d.map (fun p => (ρ p.1, g p.2))) (ρ k) (g v) = (dictSet d k v).map (fun p => (ρ p.1, g p.2)) := by
  simp only [dictSet, dictHas_ren hi]
  split
  · simp only [List.map_map, Function.comp_def]
    apply List.map_congr_left
    intro p _
    by_cases h : p.1 = k
    · simp [h]
    · have : ρ p.1 ≠ ρ k := fun e => h (hi _ _ e)
      simp [h, this]
  · simp

theorem dictOf_ren (hi : ∀ a b, ρ a = ρ b → a = b) (l : List (Str × β)) :
    dictOf (l.map (fun p => (ρ p.1, g p.2))) = (dictOf l).map (fun p => (ρ p.1, g p.2)) := by
  have : ∀ (l acc : List (Str × β)),
      (l.map (fun p => (ρ p.1, g p.2))).foldl (fun d p => dictSet d p.1 p.2) (acc.map (fun p => (ρ p.1, g p.2))) =
      (l.foldl (fun d p => dictSet d p.1 p.2) acc).map (fun p => (ρ p.1, g p.2)) := by
    intro l
    induction l with
    | nil => intro acc; rfl
    | cons a l ih =>
      intro acc
      simp only [List.map_cons, List.foldl_cons]
      rw [dictSet_ren hi, ih]
  exact this l []
end dicts

/-! ### Names -/

theorem Term.rename_name (ρ : Str → Str) (t : Term) : (t.rename ρ).name = ρ t.name := by cases t <;> rfl
theorem Term.rename_tags (ρ : Str → Str) (t : Term) : (t.rename ρ).tags = t.tags.map ρ := by
  rcases t with _ | ⟨n, _ | t⟩ <;> rfl

section names
variable {ρ : Str → Str} (R : Renaming ρ)
include R

theorem Spec.Renaming.eq_iff (a b : Str) : ρ a = ρ b ↔ a = b := ⟨R.inj a b, fun e => e ▸ rfl⟩

theorem Spec.Renaming.decide_eq (a b : Str) : decide (ρ a = ρ b) = decide (a = b) := by
  simp [R.eq_iff]

theorem Spec.Renaming.mem_map (a : Str) (l : List Str) : ρ a ∈ l.map ρ ↔ a ∈ l := by
  simp [List.mem_map, R.eq_iff]

theorem Spec.Renaming.symbol {w : Str} (h : w ∈ allSymbols) : ρ w = w := by
  by_cases hn : NameShape w
  · exact R.reserved w ((reserved_iff w).2 (reserved_of_symbol w h ((nameRegex_iff w).2 hn)))
  · exact R.other w hn

theorem Spec.Renaming.fixed_iff {k w : Str} (h : ρ k = k) : ρ w = k ↔ w = k := by
  constructor
  · intro e; exact R.inj _ _ (e.trans h.symm)
  · rintro rfl; exact h

theorem Spec.Renaming.regex (w : Str) : nameRegex (ρ w) = nameRegex w := by
  by_cases hn : NameShape w
  · rw [(nameRegex_iff w).2 hn, (nameRegex_iff _).2 (R.name w hn)]
  · rw [R.other w hn]

theorem Spec.Renaming.symbol_iff (w : Str) : ρ w ∈ allSymbols ↔ w ∈ allSymbols := by
  constructor
  · intro h
    have := R.inj _ _ (R.symbol h)
    rwa [this] at h
  · intro h; rwa [R.symbol h]

theorem Spec.Renaming.parseWith {ig : List Str} (hig : ∀ w ∈ ig, w ∈ allSymbols) (w : Str) :
    Pddl.parseWith ig (ρ w) = (Pddl.parseWith ig w).map ρ := by
  have h1 : ρ w ∈ ig ↔ w ∈ ig := by
    constructor
    · intro h
      have := R.inj _ _ (R.symbol (hig _ h))
      rwa [this] at h
    · intro h; rwa [R.symbol (hig _ h)]
  simp only [Pddl.parseWith, isKeyword, mkName, R.regex, h1, R.symbol_iff]
  by_cases h2 : w ∈ ig <;> by_cases h3 : w ∈ allSymbols <;> by_cases h4 : nameRegex w = true <;> simp [h2, h3, h4]

theorem Spec.Renaming.parseName (w : Str) : Pddl.parseName (ρ w) = (Pddl.parseName w).map ρ :=
  R.parseWith (by simp) w
theorem Spec.Renaming.parseType (w : Str) : Pddl.parseType (ρ w) = (Pddl.parseType w).map ρ :=
  R.parseWith (by simp [allSymbols]) w
theorem Spec.Renaming.parseFunction (w : Str) : Pddl.parseFunction (ρ w) = (Pddl.parseFunction w).map ρ :=
  R.parseWith (by simp [allSymbols]) w

theorem Spec.Renaming.toType (l : List Str) : Pddl.toType (l.map ρ) = (Pddl.toType l).map (List.map ρ) :=
  mapM_rename l (fun a _ => R.parseType a)

theorem Spec.Renaming.nil : ρ [] = [] := R.other [] (by rintro ⟨c, cs, h, _⟩; cases h)

theorem Spec.Renaming.toTypes (d : List (Str × Option Str)) :
    Pddl.toTypes (d.map (fun p => (ρ p.1, p.2.map ρ))) =
      (Pddl.toTypes d).map (List.map (fun p => (ρ p.1, p.2.map ρ))) := by
  unfold Pddl.toTypes
  refine map_bind_map (mapM_rename (h := fun p : Str × Option Str => (ρ p.1, p.2.map ρ)) d ?_) ?_
  · rintro ⟨k, v⟩ _
    refine map_bind_map (R.parseType k) (fun k' _ => ?_)
    rcases v with _ | _ | ⟨c, cs⟩
    · rfl
    · simp only [Option.map_some, R.nil]; rfl
    · have : ∃ c' cs', ρ (c :: cs) = c' :: cs' := by
        cases h : ρ (c :: cs) with
        | nil => exact absurd (R.inj _ _ (h.trans R.nil.symm)) (by simp)
        | cons c' cs' => exact ⟨c', cs', rfl⟩
      obtain ⟨c', cs', h⟩ := this
      simp only [Option.map_some, h]
      rw [← h]
      exact map_bind_map (R.parseType _) (fun a _ => rfl)
  · intro items _
    show Except.ok _ = _
    rw [dictOf_ren R.inj]; rfl

/-! ### Terms -/

theorem Spec.Renaming.setEq (a b : List Str) : Pddl.setEq (a.map ρ) (b.map ρ) = Pddl.setEq a b :=
  setEqBy_ren (fun a b => R.decide_eq a b) a b

theorem Spec.Renaming.dedup (l : List Str) :
    dedupBy (fun a b => decide (a = b)) (l.map ρ) = (dedupBy (fun a b => decide (a = b)) l).map ρ :=
  dedupBy_ren (fun a b => R.decide_eq a b) l

theorem Spec.Renaming.mkVar (n : Str) (tags : List Str) :
    Pddl.mkVar (ρ n) (.set (tags.map ρ)) = (Pddl.mkVar n (.set tags)).map (Var.rename ρ) := by
  unfold Pddl.mkVar
  refine map_bind_map (R.parseName n) (fun n' _ => ?_)
  simp only [checkedTags, ok_bind]
  refine map_bind_map (R.toType tags) (fun ts _ => ?_)
  simp [Var.rename, R.dedup]

theorem Spec.Renaming.mkConst (n : Str) (tag : Option Str) :
    Pddl.mkConst (ρ n) (tag.map ρ) = (Pddl.mkConst n tag).map (Term.rename ρ) := by
  unfold Pddl.mkConst
  refine map_bind_map (R.parseName n) (fun n' _ => ?_)
  cases tag with
  | none => rfl
  | some t => exact map_bind_map (R.parseType t) (fun t' _ => rfl)

theorem Spec.Renaming.varEq (a b : Var) : (a.rename ρ).pyEq (b.rename ρ) = a.pyEq b := by
  simp [Var.pyEq, Var.rename, R.eq_iff, R.setEq]

theorem Spec.Renaming.termEq (a b : Term) : (a.rename ρ).pyEq (b.rename ρ) = a.pyEq b := by
  cases a <;> cases b <;> simp [Term.pyEq, Term.rename, R.eq_iff, R.varEq]

theorem Spec.Renaming.termsEq (a b : List Term) :
    Pddl.termsEq (a.map (Term.rename ρ)) (b.map (Term.rename ρ)) = Pddl.termsEq a b := by
  induction a generalizing b with
  | nil => cases b <;> rfl
  | cons x a ih => cases b with
    | nil => rfl
    | cons y b => simp [Pddl.termsEq, R.termEq, ih]

theorem Spec.Renaming.predEq (a b : Pred) : (a.rename ρ).pyEq (b.rename ρ) = a.pyEq b := by
  simp [Pred.pyEq, Pred.rename, R.eq_iff, R.termsEq]
theorem Spec.Renaming.nfunEq (a b : NFun) : (a.rename ρ).pyEq (b.rename ρ) = a.pyEq b := by
  simp [NFun.pyEq, NFun.rename, R.eq_iff, R.termsEq]

theorem Spec.Renaming.termsConsistent (seen : List (Str × List Str)) (ts : List Term) :
    Pddl.termsConsistent (seen.map (fun p => (ρ p.1, p.2.map ρ))) (ts.map (Term.rename ρ)) =
      Pddl.termsConsistent seen ts := by
  induction ts generalizing seen with
  | nil => rfl
  | cons t ts ih =>
    simp only [List.map_cons, Pddl.termsConsistent, Term.rename_name, dictGet_ren R.inj, Term.rename_tags]
    cases h : dictGet seen t.name with
    | none =>
      simp only [Option.map_none]
      rw [← ih]; simp
    | some tags => simp only [Option.map_some, R.setEq, ih]

theorem Spec.Renaming.consistent (ts : List Term) :
    Pddl.termsConsistent [] (ts.map (Term.rename ρ)) = Pddl.termsConsistent [] ts := R.termsConsistent [] ts

theorem Spec.Renaming.mkPred (n : Str) (ts : List Term) :
    Pddl.mkPred (ρ n) (ts.map (Term.rename ρ)) = (Pddl.mkPred n ts).map (Pred.rename ρ) := by
  unfold Pddl.mkPred
  refine map_bind_map (R.parseName n) (fun n' _ => ?_)
  exact check_bind_map (R.consistent ts) (fun _ => rfl)

theorem Spec.Renaming.mkNFun (n : Str) (ts : List Term) :
    Pddl.mkNFun (ρ n) (ts.map (Term.rename ρ)) = (Pddl.mkNFun n ts).map (NFun.rename ρ) := by
  unfold Pddl.mkNFun
  exact map_bind_map (R.parseFunction n) (fun n' _ => rfl)

theorem Spec.Renaming.mkEq (l r : Term) :
    Pddl.mkEq (l.rename ρ) (r.rename ρ) = (Pddl.mkEq l r).map (Expr.rename ρ) := by
  unfold Pddl.mkEq
  exact check_bind_map (R.consistent [l, r]) (fun _ => by simp [Expr.rename])

theorem Spec.Renaming.varsEq (a b : List Var) :
    Pddl.varsEq (a.map (Var.rename ρ)) (b.map (Var.rename ρ)) = Pddl.varsEq a b :=
  setEqBy_ren (fun a b => R.varEq a b) a b

end names
end Pddl
