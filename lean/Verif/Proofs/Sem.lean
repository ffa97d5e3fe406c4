/- Semantics: congruence with `==`, and the connective constructors. -/
import Verif.Spec.Sem
import Verif.Proofs.Good

namespace Pddl
open Spec

variable {D : Type} (I : Interp D)

/-- The meaning of a normalised term. -/
def NTerm.denote (I : Interp D) (ρ : Str → D) : NTerm → D
  | .var v => ρ v.1
  | .const n => I.const n

theorem denote_norm (ρ : Str → D) (t : Term) : denote I ρ t = t.norm.denote I ρ := by
  cases t <;> rfl

theorem denote_terms {a b : List Term} (h : a.map Term.norm = b.map Term.norm) (ρ : Str → D) :
    a.map (denote I ρ) = b.map (denote I ρ) := by
  have e : ∀ l : List Term, l.map (denote I ρ) = (l.map Term.norm).map (NTerm.denote I ρ) := by
    intro l; simp [denote_norm]
  rw [e a, e b, h]

theorem numVal_key {m n : Num} (h : m.key = n.key) : numVal m = numVal n := by
  have : ∀ n : Num, numVal n = match n.key with | .val (.fin q) => some q | _ => none := by
    intro n; cases n with
    | int i => rfl
    | flt v r => cases v <;> rfl
    | str s => rfl
  rw [this m, this n, h]

theorem values_congr_of {ρ : Str → D} {as bs : List Expr}
    (ih : ∀ a ∈ as, ∀ b, a.norm = b.norm → value I ρ a = value I ρ b)
    (h : Expr.norms as = Expr.norms bs) : values I ρ as = values I ρ bs := by
  induction as generalizing bs with
  | nil => cases bs <;> simp_all [Expr.norms]
  | cons a as ihl =>
    cases bs with
    | nil => simp [Expr.norms] at h
    | cons b bs =>
      simp [Expr.norms] at h
      simp only [values]
      rw [ih a (by simp) b h.1, ihl (fun x hx => ih x (List.mem_cons_of_mem _ hx)) h.2]

theorem value_congr {ρ : Str → D} {a b : Expr} (h : a.norm = b.norm) : value I ρ a = value I ρ b := by
  induction a using Expr.ind generalizing b with
  | hnfun f =>
    cases b <;> simp [Expr.norm] at h
    simp [value, h.1, denote_terms I h.2]
  | hnum n =>
    cases b <;> simp [Expr.norm] at h
    simp [value, numVal_key h]
  | hbfun o as ih =>
    cases b <;> simp [Expr.norm] at h
    simp [value, h.1, values_congr_of I (fun a ha b h => ih a ha h) h.2]
  | _ => cases b <;> simp [Expr.norm] at h <;> simp [value]

theorem values_congr {ρ : Str → D} {as bs : List Expr} (h : Expr.norms as = Expr.norms bs) :
    values I ρ as = values I ρ bs := values_congr_of I (fun _ _ _ h => value_congr I h) h

theorem inRange_norm {v w : Var} (h : v.norm = w.norm) (d : D) : InRange I v d ↔ InRange I w d := by
  have h2 : v.tags.toFinset = w.tags.toFinset := congrArg Prod.snd h
  have h3 : ∀ x, x ∈ v.tags ↔ x ∈ w.tags := by
    intro x
    have := Finset.ext_iff.mp h2 x
    simpa using this
  have h4 : v.tags = [] ↔ w.tags = [] := by
    simp only [List.eq_nil_iff_forall_not_mem, h3]
  simp only [InRange, h3, h4]

theorem rebind_congr {vs ws : List Var} (h : varsNorm vs = varsNorm ws) (ρ ρ' : Str → D) :
    Rebind I vs ρ ρ' ↔ Rebind I ws ρ ρ' := by
  have key : ∀ vs ws : List Var, varsNorm vs = varsNorm ws → Rebind I vs ρ ρ' → Rebind I ws ρ ρ' := by
    intro vs ws h hr
    have hw : ∀ w ∈ ws, ∃ v ∈ vs, v.norm = w.norm := by
      intro w hw
      have := (Finset.ext_iff.mp h w.norm).mpr (by simp [varsNorm]; exact ⟨w, hw, rfl⟩)
      simpa [varsNorm] using this
    have hv : ∀ v ∈ vs, ∃ w ∈ ws, w.norm = v.norm := by
      intro w hw
      have := (Finset.ext_iff.mp h w.norm).mp (by simp [varsNorm]; exact ⟨w, hw, rfl⟩)
      simpa [varsNorm] using this
    refine ⟨fun n hn => hr.1 n ?_, ?_⟩
    · intro v hv' e
      obtain ⟨w, hw', e'⟩ := hv v hv'
      have : w.name = v.name := congrArg Prod.fst e'
      exact hn w hw' (this.trans e)
    · intro w hw'
      obtain ⟨v, hv', e'⟩ := hw w hw'
      have : v.name = w.name := congrArg Prod.fst e'
      rw [← this]
      exact (inRange_norm I e' _).mp (hr.2 v hv')
  exact ⟨key vs ws h, key ws vs h.symm⟩

theorem holds_congr_norm {a b : Expr} (h : a.norm = b.norm) (ρ : Str → D) :
    holds I a ρ ↔ holds I b ρ := by
  induction a using Expr.ind generalizing b ρ with
  | hpred p =>
    cases b <;> simp [Expr.norm] at h
    simp [holds, h.1, denote_terms I h.2]
  | heq l r =>
    cases b <;> simp [Expr.norm] at h
    simp [holds, denote_norm, h.1, h.2]
  | hnfun f => cases b <;> simp [Expr.norm] at h <;> simp [holds]
  | hnum n => cases b <;> simp [Expr.norm] at h <;> simp [holds]
  | hbfun o as ih =>
    cases b <;> simp [Expr.norm] at h
    simp [holds, h.1, values_congr I h.2]
  | hbin o as ih =>
    cases b with
    | bin o' bs =>
      simp [Expr.norm] at h
      obtain ⟨rfl, h⟩ := h
      have hall : ∀ as bs : List Expr, (∀ a ∈ as, ∀ {b : Expr}, a.norm = b.norm → ∀ ρ, holds I a ρ ↔ holds I b ρ) →
          Expr.norms as = Expr.norms bs → List.Forall₂ (fun a b => ∀ ρ, holds I a ρ ↔ holds I b ρ) as bs := by
        intro as
        induction as with
        | nil => intro bs _ h; cases bs <;> simp_all [Expr.norms]
        | cons a as ihl =>
          intro bs ih h
          cases bs with
          | nil => simp [Expr.norms] at h
          | cons b bs =>
            simp [Expr.norms] at h
            exact .cons (ih a (by simp) h.1) (ihl bs (fun x hx => ih x (List.mem_cons_of_mem _ hx)) h.2)
      have h2 := hall as bs ih h
      clear ih h hall
      cases o with
      | and =>
        simp only [holds]
        induction h2 with
        | nil => simp [holdsAll]
        | cons e _ ih => simp [holdsAll, ih, e ρ]
      | or =>
        simp only [holds]
        induction h2 with
        | nil => simp [holdsSome]
        | cons e _ ih => simp [holdsSome, ih, e ρ]
      | imply =>
        simp only [holds]
        cases h2 with
        | nil => simp [holdsImply]
        | cons e h2 =>
          cases h2 with
          | nil => simp [holdsImply]
          | cons e' h2 =>
            cases h2 with
            | nil => simp [holdsImply, e ρ, e' ρ]
            | cons _ _ => simp [holdsImply]
      | oneof => simp [holds]
    | _ => simp [Expr.norm] at h
  | hnot a ih =>
    cases b <;> simp [Expr.norm] at h
    simp [holds, ih h]
  | hquant q vs c ih =>
    cases b <;> simp [Expr.norm] at h
    obtain ⟨rfl, h1, h2⟩ := h
    cases q <;> simp [holds, rebind_congr I h1, ih h2]
  | hwhen c e _ _ => cases b <;> simp [Expr.norm] at h; simp [holds]
  | hfall vs e _ => cases b <;> simp [Expr.norm] at h; simp [holds]

theorem holds_congr {a b : Expr} (h : a.pyEq b = true) (ρ : Str → D) : holds I a ρ ↔ holds I b ρ :=
  holds_congr_norm I ((Expr.pyEq_iff a b).mp h) ρ

/-- All / some of the deduplicated operands hold iff all / some of the operands do. -/
theorem all_dedup (ρ : Str → D) (l : List Expr) :
    (∀ a ∈ dedupBy Expr.pyEq l, holds I a ρ) ↔ ∀ a ∈ l, holds I a ρ := by
  constructor
  · intro h a ha
    obtain ⟨y, hy, e⟩ := memBy_iff.mp (dedupBy_cover Expr.pyEq_refl ha)
    exact (holds_congr I e ρ).mpr (h y hy)
  · exact fun h a ha => h a (dedupBy_subset ha)

theorem some_dedup (ρ : Str → D) (l : List Expr) :
    (∃ a ∈ dedupBy Expr.pyEq l, holds I a ρ) ↔ ∃ a ∈ l, holds I a ρ := by
  constructor
  · rintro ⟨a, ha, h⟩; exact ⟨a, dedupBy_subset ha, h⟩
  · rintro ⟨a, ha, h⟩
    obtain ⟨y, hy, e⟩ := memBy_iff.mp (dedupBy_cover Expr.pyEq_refl ha)
    exact ⟨y, hy, (holds_congr I e ρ).mp h⟩

theorem all_flatten (ρ : Str → D) (l : List Expr) :
    (∀ a ∈ flattenEs (.bop .and) l, holds I a ρ) ↔ ∀ a ∈ l, holds I a ρ := by
  have key : ∀ n, ∀ l : List Expr, Expr.sizes l = n →
      ((∀ a ∈ flattenEs (.bop .and) l, holds I a ρ) ↔ ∀ a ∈ l, holds I a ρ) := by
    intro n
    induction n using Nat.strongRecOn with
    | _ n ih =>
      intro l hn
      match l with
      | [] => simp [flattenEs]
      | e :: rest =>
        have hpos : 0 < e.size := by cases e <;> simp [Expr.size]
        simp only [Expr.sizes] at hn
        have hrest := ih (Expr.sizes rest) (by omega) rest rfl
        rw [flattenEs]
        simp only [List.forall_mem_append, List.forall_mem_cons, hrest]
        cases ho : e.operandsIf (.bop .and) with
        | none => rw [flattenE_none ho]; simp
        | some bs =>
          rw [flattenE_some ho]
          have hs := Expr.size_operands ho
          rw [ih (Expr.sizes bs) (by omega) bs rfl]
          rw [ofCls_operandsIf] at ho
          subst ho
          simp [Expr.ofCls, holds, holdsAll_iff]
  exact key _ l rfl

theorem some_flatten (ρ : Str → D) (l : List Expr) :
    (∃ a ∈ flattenEs (.bop .or) l, holds I a ρ) ↔ ∃ a ∈ l, holds I a ρ := by
  have key : ∀ n, ∀ l : List Expr, Expr.sizes l = n →
      ((∃ a ∈ flattenEs (.bop .or) l, holds I a ρ) ↔ ∃ a ∈ l, holds I a ρ) := by
    intro n
    induction n using Nat.strongRecOn with
    | _ n ih =>
      intro l hn
      match l with
      | [] => simp [flattenEs]
      | e :: rest =>
        have hpos : 0 < e.size := by cases e <;> simp [Expr.size]
        simp only [Expr.sizes] at hn
        have hrest := ih (Expr.sizes rest) (by omega) rest rfl
        have happ : ∀ a b : List Expr, (∃ x ∈ a ++ b, holds I x ρ) ↔
            (∃ x ∈ a, holds I x ρ) ∨ ∃ x ∈ b, holds I x ρ := by
          intro a b; simp only [List.mem_append, or_and_right, exists_or]
        rw [flattenEs, happ, hrest]
        simp only [List.mem_cons, exists_eq_or_imp]
        cases ho : e.operandsIf (.bop .or) with
        | none => rw [flattenE_none ho]; simp
        | some bs =>
          rw [flattenE_some ho]
          have hs := Expr.size_operands ho
          rw [ih (Expr.sizes bs) (by omega) bs rfl]
          rw [ofCls_operandsIf] at ho
          subst ho
          simp [Expr.ofCls, holds, holdsSome_iff]
  exact key _ l rfl

theorem all_simpl (ρ : Str → D) (l : List Expr) :
    (∀ a ∈ simplOperands (.bop .and) l, holds I a ρ) ↔ ∀ a ∈ l, holds I a ρ := by
  rw [← all_dedup I ρ l]
  by_cases h : 2 ≤ (dedupBy Expr.pyEq l).length
  · rw [simplOperands_loop (by simpa [Cls.idempotent] using h)]
    simp only [Cls.idempotent, if_true]
    rw [all_dedup, all_flatten]
  · have : simplOperands (.bop .and) l = dedupBy Expr.pyEq l := by
      simp only [simplOperands, Cls.idempotent, if_true]
      match hd : dedupBy Expr.pyEq l, h with
      | [], _ => rfl
      | [x], _ => rfl
      | _ :: _ :: _, h => simp at h
    rw [this]

theorem some_simpl (ρ : Str → D) (l : List Expr) :
    (∃ a ∈ simplOperands (.bop .or) l, holds I a ρ) ↔ ∃ a ∈ l, holds I a ρ := by
  rw [← some_dedup I ρ l]
  by_cases h : 2 ≤ (dedupBy Expr.pyEq l).length
  · rw [simplOperands_loop (by simpa [Cls.idempotent] using h)]
    simp only [Cls.idempotent, if_true]
    rw [some_dedup, some_flatten]
  · have : simplOperands (.bop .or) l = dedupBy Expr.pyEq l := by
      simp only [simplOperands, Cls.idempotent, if_true]
      match hd : dedupBy Expr.pyEq l, h with
      | [], _ => rfl
      | [x], _ => rfl
      | _ :: _ :: _, h => simp at h
    rw [this]

theorem holds_mkAnd (ρ : Str → D) (l : List Expr) :
    holds I (mkAnd l) ρ ↔ ∀ a ∈ l, holds I a ρ := by
  rw [← all_simpl]
  simp only [mkAnd, construct, Cls.isMeta, Cls.idempotent, if_true]
  split
  · next x hx => simp [hx]
  · simp [Expr.ofCls, holds, holdsAll_iff]

theorem holds_mkOr (ρ : Str → D) (l : List Expr) :
    holds I (mkOr l) ρ ↔ ∃ a ∈ l, holds I a ρ := by
  rw [← some_simpl]
  simp only [mkOr, construct, Cls.isMeta, Cls.idempotent, if_true]
  split
  · next x hx => simp [hx]
  · simp [Expr.ofCls, holds, holdsSome_iff]

/-- `dedupBy` keeps the first occurrences. -/
theorem dedupAux_firstOcc {α} {eq : α → α → Bool}
    (ht : ∀ a b c, eq a b = true → eq b c = true → eq a c = true) (seen l : List α) :
    dedupAux eq seen l = (firstOcc eq l).filter (fun y => !memBy eq y seen) := by
  induction l generalizing seen with
  | nil => simp [dedupAux, firstOcc]
  | cons x l ih =>
    rw [dedupAux, firstOcc, List.filter_cons]
    split
    · next h =>
      simp only [h, Bool.not_true, Bool.false_eq_true, if_false, List.filter_filter, ih]
      apply List.filter_congr
      intro y _
      by_cases hy : eq y x = true
      · have : memBy eq y seen = true := by
          rw [memBy, List.any_eq_true] at h ⊢
          obtain ⟨z, hz, e⟩ := h
          exact ⟨z, hz, ht _ _ _ hy e⟩
        simp [this]
      · simp [hy]
    · next h =>
      simp only [h, Bool.not_false, if_true, List.filter_filter, ih]
      congr 2
      funext y
      simp [memBy, Bool.and_comm]

theorem dedupBy_firstOcc (l : List Expr) : dedupBy Expr.pyEq l = firstOcc Expr.pyEq l := by
  rw [dedupBy, dedupAux_firstOcc (eq := Expr.pyEq) (fun _ _ _ => Expr.pyEq_trans)]; simp [memBy]

theorem leaves_eq (c : Cls) (as : List Expr) : leavesAll c as = flattenEs c as := by
  have hl : ∀ as : List Expr, (∀ a ∈ as, leaves c a = flattenE c a) →
      leavesAll c as = flattenEs c as := by
    intro as ih
    induction as with
    | nil => rfl
    | cons a as ihl =>
      simp [leavesAll, flattenEs, ih a (by simp), ihl (fun x hx => ih x (List.mem_cons_of_mem _ hx))]
  have h1 : ∀ e : Expr, leaves c e = flattenE c e := by
    intro e
    induction e using Expr.ind with
    | hbin o' as ih => simp only [leaves, flattenE, hl as ih]
    | hbfun o' as ih => simp only [leaves, flattenE, hl as ih]
    | _ => simp [leaves, flattenE]
  exact hl as (fun a _ => h1 a)

theorem sizes_mem {as : List Expr} {a : Expr} (h : a ∈ as) : a.size ≤ Expr.sizes as := by
  induction as with
  | nil => simp at h
  | cons b bs ih =>
    rcases List.mem_cons.mp h with rfl | h
    · simp [Expr.sizes]
    · have := ih h; simp [Expr.sizes]; omega

/-- Operand lists of an existing `And`/`Or` are canonical. -/
theorem Stable.canonical {c : Cls} (hm : c.isMeta = true) (hi : c.idempotent = true) {as : List Expr}
    (h : Stable c as) : Canonical c as ∧ as.length ≠ 1 := by
  unfold Stable at h
  by_cases hl : 2 ≤ (dedupBy Expr.pyEq as).length
  · have hs := simplOperands_loop (c := c) (args := as) (by simpa [hi] using hl)
    simp only [hi, if_true] at hs
    have hc := canonical_dedup c (dedupBy Expr.pyEq as)
    rw [← hs] at hc
    simp only [construct, hm, hi, if_true] at h
    split at h
    · next x hx =>
      have : x.operandsIf c = none := hc.flat x (by rw [hx]; simp)
      rw [h, operandsIf_ofCls] at this
      simp at this
    · have e : simplOperands c as = as := by
        cases c <;> simpa [Expr.ofCls] using h
      rw [e] at hc
      refine ⟨hc, fun h1 => ?_⟩
      have := (dedupBy_sublist (eq := Expr.pyEq) as).length_le
      omega
  · match hd : dedupBy Expr.pyEq as, hl with
    | [], _ =>
      have : as = [] := by
        match as with
        | [] => rfl
        | x :: l => simp [dedupBy, dedupAux, memBy] at hd
      subst this
      exact ⟨⟨by simp, by simp⟩, by simp⟩
    | [x], _ =>
      have hx : x ∈ as := dedupBy_subset (eq := Expr.pyEq) (by rw [hd]; simp)
      have : construct c as = x := by simp [construct, hm, simplOperands, hi, hd]
      rw [this] at h
      have h1 := sizes_mem hx
      have h2 := Expr.size_operands (c := c) (e := x) (as := as) (by rw [h, operandsIf_ofCls])
      omega
    | _ :: _ :: _, hl => simp at hl

/-! ### Deduplicating before flattening makes no difference -/

theorem dedupAux_append {α} {eq : α → α → Bool} (seen a b : List α) :
    dedupAux eq seen (a ++ b) = dedupAux eq seen a ++ dedupAux eq (seen ++ dedupAux eq seen a) b := by
  induction a generalizing seen with
  | nil => simp [dedupAux]
  | cons x l ih =>
    simp only [List.cons_append, dedupAux]
    split <;> simp [ih]

theorem dedupAux_skip {α} {eq : α → α → Bool} {seen a : List α}
    (h : ∀ x ∈ a, memBy eq x seen = true) : dedupAux eq seen a = [] := by
  induction a with
  | nil => rfl
  | cons x l ih =>
    rw [dedupAux, if_pos (h x (by simp)), ih (fun y hy => h y (List.mem_cons_of_mem _ hy))]

theorem operandsIf_congr {c : Cls} {a b : Expr} (h : a.norm = b.norm) :
    (a.operandsIf c = none ∧ b.operandsIf c = none) ∨
    ∃ as bs, a.operandsIf c = some as ∧ b.operandsIf c = some bs ∧ Expr.norms as = Expr.norms bs := by
  by_cases ha : ∃ as, a.operandsIf c = some as
  · obtain ⟨as, ha⟩ := ha
    right
    have ha' := ofCls_operandsIf.mp ha
    subst ha'
    cases c with
    | bop o =>
      cases b <;> simp [Expr.ofCls, Expr.norm] at h
      obtain ⟨rfl, h⟩ := h
      exact ⟨_, _, ha, operandsIf_ofCls (.bop _) _, h⟩
    | fop o =>
      cases b <;> simp [Expr.ofCls, Expr.norm] at h
      obtain ⟨rfl, h⟩ := h
      exact ⟨_, _, ha, operandsIf_ofCls (.fop _) _, h⟩
  · left
    have h1 : a.operandsIf c = none := by
      cases h' : a.operandsIf c with
      | none => rfl
      | some x => exact absurd ⟨x, h'⟩ ha
    refine ⟨h1, ?_⟩
    cases h' : b.operandsIf c with
    | none => rfl
    | some bs =>
      exfalso; apply ha
      have hb := ofCls_operandsIf.mp h'
      subst hb
      cases c with
      | bop o =>
        cases a <;> simp [Expr.ofCls, Expr.norm] at h
        obtain ⟨rfl, h⟩ := h
        exact ⟨_, operandsIf_ofCls (.bop _) _⟩
      | fop o =>
        cases a <;> simp [Expr.ofCls, Expr.norm] at h
        obtain ⟨rfl, h⟩ := h
        exact ⟨_, operandsIf_ofCls (.fop _) _⟩

theorem flattenE_congr {c : Cls} (a b : Expr) (h : a.norm = b.norm) :
    (flattenE c a).map Expr.norm = (flattenE c b).map Expr.norm := by
  have key : ∀ n, ∀ as bs : List Expr, Expr.sizes as = n → Expr.norms as = Expr.norms bs →
      (flattenEs c as).map Expr.norm = (flattenEs c bs).map Expr.norm := by
    intro n
    induction n using Nat.strongRecOn with
    | _ n ih =>
      intro as bs hn h
      match as, bs with
      | [], [] => rfl
      | [], _ :: _ => simp [Expr.norms] at h
      | _ :: _, [] => simp [Expr.norms] at h
      | a :: as, b :: bs =>
        simp [Expr.norms] at h
        have hpos : 0 < a.size := by cases a <;> simp [Expr.size]
        simp only [Expr.sizes] at hn
        have hrest := ih (Expr.sizes as) (by omega) as bs rfl h.2
        rw [flattenEs, flattenEs, List.map_append, List.map_append, hrest]
        congr 1
        rcases operandsIf_congr (c := c) h.1 with ⟨h1, h2⟩ | ⟨xs, ys, h1, h2, h3⟩
        · rw [flattenE_none h1, flattenE_none h2]; simp [h.1]
        · rw [flattenE_some h1, flattenE_some h2]
          have := Expr.size_operands h1
          exact ih (Expr.sizes xs) (by omega) xs ys rfl h3
  have := key _ [a] [b] rfl (by simp [Expr.norms, h])
  simpa [flattenEs] using this

theorem dedup_flatten_dedupAux {c : Cls} (sa seen args : List Expr)
    (h : ∀ a ∈ sa, ∀ x ∈ flattenE c a, memBy Expr.pyEq x seen = true) :
    dedupAux Expr.pyEq seen (flattenEs c (dedupAux Expr.pyEq sa args)) =
      dedupAux Expr.pyEq seen (flattenEs c args) := by
  induction args generalizing sa seen with
  | nil => rfl
  | cons x l ih =>
    rw [dedupAux]
    split
    · next hm =>
      rw [ih sa seen h, flattenEs, dedupAux_append]
      obtain ⟨y, hy, e⟩ := memBy_iff.mp hm
      have hn := flattenE_congr (c := c) x y ((Expr.pyEq_iff _ _).mp e)
      have : ∀ z ∈ flattenE c x, memBy Expr.pyEq z seen = true := by
        intro z hz
        have : z.norm ∈ (flattenE c y).map Expr.norm := by
          rw [← hn]; exact List.mem_map_of_mem hz
        obtain ⟨w, hw, hwn⟩ := List.mem_map.mp this
        obtain ⟨s, hs, e'⟩ := memBy_iff.mp (h y hy w hw)
        exact memBy_iff.mpr ⟨s, hs, Expr.pyEq_trans ((Expr.pyEq_iff _ _).mpr hwn.symm) e'⟩
      rw [dedupAux_skip this]; simp
    · rw [flattenEs, flattenEs, dedupAux_append, dedupAux_append]
      congr 1
      apply ih
      intro a ha z hz
      rw [memBy_append, Bool.or_eq_true]
      rcases List.mem_append.mp ha with ha | ha
      · exact Or.inl (h a ha z hz)
      · simp at ha; subst ha
        have := dedupAux_cover (eq := Expr.pyEq) Expr.pyEq_refl (seen := seen) hz
        rw [memBy_append, Bool.or_eq_true] at this
        exact this

theorem dedup_flatten_dedup {c : Cls} (args : List Expr) :
    dedupBy Expr.pyEq (flattenEs c (dedupBy Expr.pyEq args)) = dedupBy Expr.pyEq (flattenEs c args) :=
  dedup_flatten_dedupAux [] [] args (by simp)

/-! ### Arithmetic -/

theorem values_append (ρ : Str → D) (a b : List Expr) :
    values I ρ (a ++ b) = (values I ρ a).bind (fun x => (values I ρ b).map (x ++ ·)) := by
  induction a with
  | nil => simp [values]
  | cons e l ih =>
    simp only [List.cons_append, values, ih]
    cases value I ρ e <;> simp
    cases values I ρ l <;> simp
    cases values I ρ b <;> simp

theorem distinct_dedup {l : List Expr} (h : Distinct l) : dedupBy Expr.pyEq l = l := by
  apply dedupBy_eq_self
  refine List.Pairwise.imp ?_ h
  intro a b e
  cases e' : b.pyEq a with
  | false => rfl
  | true => rw [Expr.pyEq_symm e'] at e; simp at e

/-- A commutative and associative operation may be computed on the flattened operands. -/
theorem values_flatten (ρ : Str → D) (o : FOp) (op : Rat → Rat → Rat) (u : Rat)
    (hass : ∀ a b c, op (op a b) c = op a (op b c)) (hu : ∀ a, op u a = a)
    (hu' : ∀ a, op a u = a) (ho : ∀ l, arith o l = some (l.foldr op u)) (as : List Expr) :
    (values I ρ (flattenEs (.fop o) as)).map (List.foldr op u) = (values I ρ as).map (List.foldr op u) := by
  have hf : ∀ a b : List Rat, (a ++ b).foldr op u = op (a.foldr op u) (b.foldr op u) := by
    intro a b
    induction a with
    | nil => simp [hu]
    | cons x l ih => simp only [List.cons_append, List.foldr_cons, ih, hass]
  have key : ∀ n, ∀ as : List Expr, Expr.sizes as = n →
      (values I ρ (flattenEs (.fop o) as)).map (List.foldr op u) =
        (values I ρ as).map (List.foldr op u) := by
    intro n
    induction n using Nat.strongRecOn with
    | _ n ih =>
      intro as hn
      match as with
      | [] => rfl
      | e :: rest =>
        have hpos : 0 < e.size := by cases e <;> simp [Expr.size]
        simp only [Expr.sizes] at hn
        have hrest := ih (Expr.sizes rest) (by omega) rest rfl
        have happ : ∀ a b : List Expr, (values I ρ (a ++ b)).map (List.foldr op u) =
            ((values I ρ a).map (List.foldr op u)).bind
              (fun x => ((values I ρ b).map (List.foldr op u)).map (op x)) := by
          intro a b
          rw [values_append]
          cases values I ρ a <;> cases values I ρ b <;> simp [hf]
        have hcons : (values I ρ (e :: rest)).map (List.foldr op u) = (value I ρ e).bind
              (fun x => ((values I ρ rest).map (List.foldr op u)).map (op x)) := by
          simp only [values]
          cases value I ρ e <;> cases values I ρ rest <;> simp
        rw [flattenEs, happ, hrest, hcons]
        congr 1
        cases h : e.operandsIf (.fop o) with
        | none =>
          rw [flattenE_none h]
          simp only [values]
          cases value I ρ e <;> simp [hu']
        | some bs =>
          rw [flattenE_some h]
          have := Expr.size_operands h
          rw [ih (Expr.sizes bs) (by omega) bs rfl]
          rw [ofCls_operandsIf] at h
          subst h
          simp only [Expr.ofCls, value]
          cases values I ρ bs <;> simp [ho]
  exact key _ as rfl

end Pddl
