/- Problems and plans. -/
import Verif.Spec.Problem
import Verif.Proofs.Types
import Verif.Proofs.Consistent

namespace Pddl
open Spec

theorem check_error {c : Bool} {x e : Exc} (h : check c x = .error e) : e = x := by
  unfold check at h; split at h <;> simp at h; exact h.symm

theorem literal_iff {e : Expr} : isLiteral e = true ↔ Literal e := by
  constructor
  · intro h
    cases e with
    | not a => cases a <;> simp [isLiteral, Expr.isAtomic] at h <;> constructor
    | _ => first | (simp [isLiteral, Expr.isAtomic] at h; done) | constructor
  · intro h
    cases h <;> rfl

theorem lowerC_eq (c : Char) : lowerC c = c.toLower := by
  by_cases h : 65 ≤ c.toNat ∧ c.toNat ≤ 90
  · have hall : ∀ n : Fin 26, lowerC (Char.ofNat (65 + n)) = (Char.ofNat (65 + n)).toLower := by
      decide +kernel
    have := hall ⟨c.toNat - 65, by omega⟩
    have e : 65 + (c.toNat - 65) = c.toNat := by omega
    simp only [e, Char.ofNat_toNat] at this
    exact this
  · unfold lowerC Char.toLower
    rw [if_neg h, dif_neg]
    intro h'
    apply h
    exact ⟨UInt32.le_iff_toNat_le.mp h'.1, UInt32.le_iff_toNat_le.mp h'.2⟩

theorem lower_iff {a b : Str} : lower a = lower b ↔ SameIgnoringCase a b := by
  unfold lower SameIgnoringCase
  have : lowerC = Char.toLower := funext lowerC_eq
  rw [this]

theorem cleanDict_idem (d : TypeDict) : cleanDict (cleanDict d) = cleanDict d := by
  simp only [cleanDict, List.map_map]
  apply List.map_congr_left
  intro p _
  obtain ⟨k, v⟩ := p
  cases v with
  | none => rfl
  | some s => cases s <;> rfl

theorem typeNamesOk_clean {d : TypeDict} (h : TypeNamesOk d) : TypeNamesOk (cleanDict d) := by
  intro p hp
  obtain ⟨q, hq, rfl⟩ := List.mem_map.mp hp
  refine ⟨(h q hq).1, ?_⟩
  intro b hb hne
  refine (h q hq).2 b ?_ hne
  simp only at hb
  obtain ⟨k, v⟩ := q
  cases v with
  | none => simp [cleanParent] at hb
  | some s => cases s <;> simp_all [cleanParent]

/-- Domains that exist. -/
def ExistsDomain (d : Domain) : Prop := ∃ a : DomainArgs, IsDict a.types ∧ mkDomain a = .ok d

theorem existsDomain_types {d : Domain} (h : ExistsDomain d) :
    toTypes d.types = .ok d.types ∧ cleanDict d.types = d.types ∧ IsDict d.types := by
  obtain ⟨a, ht, h⟩ := h
  obtain ⟨_, h2, _, _, _, _, _, _, rfl⟩ := (mkDomain_ok ht).mp h
  have hd : IsDict (cleanDict a.types) := isDict_clean ht
  refine ⟨?_, cleanDict_idem _, hd⟩
  simp only [domainOf]
  exact (toTypes_ok hd).mpr ⟨typeNamesOk_clean h2, (cleanDict_idem _).symm⟩

theorem problemCheck_ok {p : Problem} {d : Domain} (hd : ExistsDomain d) :
    p.check d = .ok () ↔ Fits p d := by
  obtain ⟨h1, h2, _⟩ := existsDomain_types hd
  unfold Problem.check
  rw [bind_unit_ok, bind_unit_ok, h1, ok_bind, check_ok, check_ok, decide_eq_true_eq, lower_iff]
  simp only
  rw [bind_unit_ok, bind_unit_ok, checkTerms_ok, checkEach_ok, checkExpr_ok]
  simp only [checkExpr_ok, WellTyped]
  have hall : ∀ x, x ∈ typesAll d.types ↔ Declared d.types x := by
    intro x
    have := mem_typesAll (d := d.types) (t := x)
    rw [h2] at this; exact this
  have hw : ∀ t, WellTypedTerm (· ∈ typesAll d.types) d.reqs t ↔ WellTypedTerm (Declared d.types) d.reqs t :=
    fun t => wellTypedTerm_congr hall (fun _ => Iff.rfl) t
  simp only [hw]
  have hr : (match p.reqs_ with
      | none => true
      | some rs => rs.all (fun r => decide (r ∈ d.reqs))) = true ↔
      ∀ rs, p.reqs_ = some rs → ∀ r ∈ rs, r ∈ d.reqs := by
    cases p.reqs_ <;> simp
  refine Iff.trans (and_congr Iff.rfl (and_congr hr Iff.rfl)) ?_
  exact ⟨fun ⟨a, b, c, e, f⟩ => ⟨a, b, c, e, f⟩, fun h => ⟨h.name, h.reqs, h.objects, h.init, h.goal⟩⟩

theorem problemCheck_error {p : Problem} {d : Domain} (hd : ExistsDomain d) {e : Exc}
    (h : p.check d = .error e) : e = .validation := by
  obtain ⟨h1, _, _⟩ := existsDomain_types hd
  unfold Problem.check at h
  rw [bind_unit_error] at h
  rcases h with h | ⟨_, h⟩
  · exact check_error h
  rw [bind_unit_error] at h
  rcases h with h | ⟨_, h⟩
  · exact check_error h
  rw [h1, ok_bind] at h
  simp only at h
  rw [bind_unit_error] at h
  rcases h with h | ⟨_, h⟩
  · obtain ⟨t, _, h⟩ := checkEach_error h; exact checkTerm_error h
  rw [bind_unit_error] at h
  rcases h with h | ⟨_, h⟩
  · obtain ⟨t, _, h⟩ := checkEach_error h; exact checkExpr_error h
  · exact checkExpr_error h

/-! ### Dictionaries of schemas -/

theorem dictGet_set {β} (d : List (Str × β)) (k k' : Str) (v : β) :
    dictGet (dictSet d k v) k' = if k' = k then some v else dictGet d k' := by
  unfold dictSet
  split
  · next h =>
    induction d with
    | nil => simp [dictHas] at h
    | cons p d ih =>
      obtain ⟨a, b⟩ := p
      unfold dictGet at *
      by_cases hk : a = k
      · subst hk
        by_cases hk' : k' = a
        · subst hk'; simp
        · have hne : (k' == a) = false := by simpa using hk'
          have hrest : ∀ d : List (Str × β), List.lookup k' (d.map (fun p => if p.1 = a then (a, v) else p))
              = List.lookup k' d := by
            intro d
            induction d with
            | nil => rfl
            | cons q d ih =>
              obtain ⟨x, y⟩ := q
              rw [List.map_cons]
              by_cases hx : x = a
              · subst hx; simp [List.lookup_cons, hne, ih]
              · simp [List.lookup_cons, hx, ih]
          rw [List.map_cons]
          simp only [if_true, List.lookup_cons, hne, hrest, if_neg hk']
      · have hh : dictHas d k = true := by
          simpa [dictHas, hk] using h
        rw [List.map_cons, if_neg hk, List.lookup_cons, List.lookup_cons, ih hh]
        by_cases hk' : k' = a
        · subst hk'; simp [hk]
        · have hne : (k' == a) = false := by simpa using hk'
          simp [hne]
  · next h =>
    rw [dictGet_append_single]
    by_cases hk : k' = k
    · subst hk
      have : dictGet d k' = none := by
        rw [dictHas_iff] at h
        unfold dictGet
        rw [List.lookup_eq_none_iff]
        intro p hp
        simp only [bne_iff_ne, ne_eq]
        intro e
        exact h (List.mem_map.mpr ⟨p, hp, e.symm⟩)
      simp [this]
    · have : ¬ k = k' := fun e => hk e.symm
      simp [hk, this]

theorem dictGet_dictOf {β} (items : List (Str × β)) (k : Str) :
    dictGet (dictOf items) k = (items.reverse.find? (fun p => decide (p.1 = k))).map Prod.snd := by
  unfold dictOf
  have : ∀ (l acc : List (Str × β)), dictGet (l.foldl (fun d p => dictSet d p.1 p.2) acc) k =
      ((l.reverse.find? (fun p => decide (p.1 = k))).map Prod.snd).or (dictGet acc k) := by
    intro l
    induction l with
    | nil => simp
    | cons p l ih =>
      intro acc
      rw [List.foldl_cons, ih, dictGet_set]
      simp only [List.reverse_cons, List.find?_append, List.find?_cons, List.find?_nil]
      cases List.find? (fun p => decide (p.1 = k)) l.reverse with
      | some q => simp
      | none =>
        by_cases hk : k = p.1
        · subst hk; simp
        · have : ¬ p.1 = k := fun e => hk e.symm
          simp [hk, this]
  rw [this]; simp [dictGet]

theorem schemas_get (d : Domain) (n : Str) : dictGet d.schemas n = lastNamed n d.actions := by
  unfold Domain.schemas lastNamed
  rw [dictGet_dictOf, ← List.map_reverse, List.find?_map]
  cases h : List.find? (fun a => decide (a.name = n)) d.actions.reverse with
  | none => simp [Function.comp_def, h]
  | some a => simp [Function.comp_def, h]

theorem lastNamed_mem {n : Str} {as : List Action} {a : Action} (h : lastNamed n as = some a) :
    a ∈ as ∧ a.name = n := by
  unfold lastNamed at h
  refine ⟨by simpa using List.mem_of_find?_eq_some h, ?_⟩
  have := List.find?_some h
  simpa using this

theorem lastNamed_isSome {n : Str} {as : List Action} (h : n ∈ as.map Action.name) :
    ∃ a, lastNamed n as = some a := by
  obtain ⟨a, ha, e⟩ := List.mem_map.mp h
  cases hl : lastNamed n as with
  | some b => exact ⟨b, rfl⟩
  | none =>
    unfold lastNamed at hl
    rw [List.find?_eq_none] at hl
    exact absurd e (by simpa using hl a (by simpa using ha))

theorem memBy_dedup_term {t : Term} {l : List Term} :
    memBy Term.pyEq t (dedupBy Term.pyEq l) = true ↔ ∃ o ∈ l, t.pyEq o = true := by
  rw [memBy_iff]
  constructor
  · rintro ⟨o, ho, e⟩; exact ⟨o, dedupBy_subset ho, e⟩
  · rintro ⟨o, ho, e⟩
    obtain ⟨o', ho', e'⟩ := memBy_iff.mp (dedupBy_cover (eq := Term.pyEq) (fun a => eqv_term.refl a) ho)
    exact ⟨o', ho', eqv_term.trans e e'⟩

theorem planCheck_ok {p : Plan} {d : Domain} {pr : Problem} :
    p.check d pr = .ok () ↔ ∀ s ∈ p.steps, StepOk d pr s := by
  unfold Plan.check
  induction p.steps with
  | nil => simp [checkSteps]
  | cons s l ih =>
    obtain ⟨n, args⟩ := s
    rw [checkSteps, bind_unit_ok, check_ok, decide_eq_true_eq, schemas_get]
    rw [List.forall_mem_cons, ← ih]
    unfold StepOk
    cases hl : lastNamed n d.actions with
    | none =>
      simp only
      constructor
      · rintro ⟨h, _⟩
        obtain ⟨a, ha⟩ := lastNamed_isSome h
        rw [hl] at ha; simp at ha
      · rintro ⟨⟨a, ha, _⟩, _⟩; simp at ha
    | some a =>
      obtain ⟨hm, hn⟩ := lastNamed_mem hl
      simp only
      rw [bind_unit_ok, bind_unit_ok, check_ok, check_ok, decide_eq_true_eq, List.all_eq_true]
      simp only [memBy_dedup_term, Option.some.injEq, exists_eq_left']
      constructor
      · rintro ⟨_, h1, h2, h3⟩; exact ⟨⟨h1, h2⟩, h3⟩
      · rintro ⟨⟨h1, h2⟩, h3⟩
        exact ⟨List.mem_map.mpr ⟨a, hm, hn⟩, h1, h2, h3⟩

theorem planCheck_error {p : Plan} {d : Domain} {pr : Problem} {e : Exc}
    (h : p.check d pr = .error e) : e = .validation := by
  unfold Plan.check at h
  generalize p.steps = l at h
  induction l with
  | nil => simp [checkSteps] at h
  | cons s l ih =>
    obtain ⟨n, args⟩ := s
    rw [checkSteps, bind_unit_error] at h
    rcases h with h | ⟨h0, h⟩
    · exact check_error h
    rw [check_ok, decide_eq_true_eq] at h0
    obtain ⟨a, ha⟩ := lastNamed_isSome h0
    rw [schemas_get, ha] at h
    simp only at h
    rw [bind_unit_error] at h
    rcases h with h | ⟨_, h⟩
    · exact check_error h
    rw [bind_unit_error] at h
    rcases h with h | ⟨_, h⟩
    · exact check_error h
    · exact ih h

theorem instSteps_ok {d : Domain} {steps : List (Str × List Term)} {gs : List Action} :
    instSteps d.schemas steps = .ok gs ↔
      List.Forall₂ (fun s g => ∃ a, lastNamed s.1 d.actions = some a ∧ a.inst s.2 = .ok g) steps gs := by
  induction steps generalizing gs with
  | nil => simp [instSteps, eq_comm]
  | cons s l ih =>
    obtain ⟨n, args⟩ := s
    rw [instSteps, schemas_get]
    cases hl : lastNamed n d.actions with
    | none =>
      simp only [reduceCtorEq, false_iff]
      intro h; cases h with
      | cons h _ => obtain ⟨a, ha, _⟩ := h; simp only [hl] at ha; simp at ha
    | some a =>
      simp only [bind_ok_iff]
      constructor
      · rintro ⟨g, hg, gs', hgs, h⟩
        simp at h; subst h
        exact .cons ⟨a, hl, hg⟩ (ih.mp hgs)
      · intro h
        cases h with
        | cons h1 h2 =>
          obtain ⟨a', ha', hi⟩ := h1
          simp only [hl, Option.some.injEq] at ha'
          subst ha'
          exact ⟨_, hi, _, ih.mpr h2, rfl⟩

end Pddl
