/- Instantiating in two stages. -/
import Verif.Proofs.InstAtoms

namespace Pddl
open Spec

variable {m : Mapping}

/-- Deduplicated flattening. -/
def content (c : Cls) (l : List Expr) : List Expr := dedupBy Expr.pyEq (flattenEs c l)

/-- The object with that content, for `And` and `Or`. -/
def nodeOf (c : Cls) : List Expr → Expr
  | [x] => x
  | l => Expr.ofCls c l

theorem content_canonical {c : Cls} {l : List Expr} (h : Canonical c l) : content c l = l := by
  rw [content, flattenEs_flat h.flat, dedupBy_eq_self h.distinct]

/-- For constructor-built operands the result depends on the content only. -/
theorem construct_eq_node {c : Cls} (hm : c.isMeta = true) (hi : c.idempotent = true) {l : List Expr}
    (hg : ∀ a ∈ l, a.Good) : construct c l = nodeOf c (content c l) := by
  by_cases h2 : 2 ≤ (dedupBy Expr.pyEq l).length
  · have hs := simplOperands_loop (c := c) (args := l) (by simpa [hi] using h2)
    simp only [hi, if_true] at hs
    rw [dedup_flatten_dedup] at hs
    simp only [construct, hm, if_true, hs, hi, content]
    generalize dedupBy Expr.pyEq (flattenEs c l) = k
    match k with
    | [] => rfl
    | [x] => rfl
    | _ :: _ :: _ => rfl
  · match hd : dedupBy Expr.pyEq l, h2 with
    | [], _ =>
      have : l = [] := by
        match l with
        | [] => rfl
        | x :: l => simp [dedupBy, dedupAux, memBy] at hd
      subst this
      simp [construct, hm, simplOperands, hi, content, nodeOf, flattenEs, dedupBy, dedupAux]
    | [x], _ =>
      have h1 : construct c l = x := by simp [construct, hm, simplOperands, hi, hd]
      have h3 : content c l = content c [x] := by
        rw [content, ← dedup_flatten_dedup, hd, content]
      have hx : x.Good := hg x (dedupBy_subset (eq := Expr.pyEq) (by rw [hd]; simp))
      rw [h1, h3]
      cases ho : x.operandsIf c with
      | none =>
        have : content c [x] = [x] := by
          simp [content, flattenEs, flattenE_none ho, dedupBy_length_one]
        rw [this]; rfl
      | some as =>
        have e := ofCls_operandsIf.mp ho
        subst e
        obtain ⟨hst, _⟩ := good_ofCls.mp hx
        obtain ⟨hc, hl1⟩ := Stable.canonical hm hi hst
        have : content c [Expr.ofCls c as] = as := by
          rw [content, flattenEs, flattenE_some ho]
          simp only [flattenEs, List.append_nil]
          exact content_canonical hc
        rw [this]
        match as, hl1 with
        | [], _ => rfl
        | [x], h => simp at h
        | _ :: _ :: _, _ => rfl
    | _ :: _ :: _, h => simp at h

/-- The content of the constructed object is the content of the operands. -/
theorem content_construct {c : Cls} (hm : c.isMeta = true) (hi : c.idempotent = true) {l : List Expr}
    (hg : ∀ a ∈ l, a.Good) : content c [construct c l] = content c l := by
  rw [construct_eq_node hm hi hg]
  have hc := canonical_dedup c l
  change Canonical c (content c l) at hc
  generalize content c l = k at hc
  match k with
  | [] => simp [nodeOf, content, flattenEs, flattenE_some (operandsIf_ofCls c []), dedupBy, dedupAux]
  | [x] => exact content_canonical hc
  | x :: y :: r =>
    have : content c [nodeOf c (x :: y :: r)] = content c (x :: y :: r) := by
      simp only [nodeOf, content, flattenEs, flattenE_some (operandsIf_ofCls c (x :: y :: r)), List.append_nil]
    rw [this, content_canonical hc]

/-- Two lists with the same content may be exchanged before other operands. -/
theorem content_append {c : Cls} (a b : List Expr) :
    content c (a ++ b) = dedupBy Expr.pyEq (content c a ++ content c b) := by
  have ht : ∀ a b c : Expr, a.pyEq b = true → b.pyEq c = true → a.pyEq c = true :=
    fun _ _ _ => Expr.pyEq_trans
  unfold content
  rw [flattenEs_append]
  generalize flattenEs c a = x
  generalize flattenEs c b = y
  unfold dedupBy
  rw [dedupAux_append, dedupAux_append]
  have h1 : dedupAux Expr.pyEq [] (dedupAux Expr.pyEq [] x) = dedupAux Expr.pyEq [] x := dedupBy_idem x
  rw [h1]
  congr 1
  simp only [List.nil_append]
  generalize dedupAux Expr.pyEq [] x = s
  rw [dedupAux_firstOcc ht, dedupAux_firstOcc ht]
  have h2 : dedupAux Expr.pyEq [] y = firstOcc Expr.pyEq y := by
    rw [dedupAux_firstOcc ht]; simp [memBy]
  have h3 : firstOcc Expr.pyEq (firstOcc Expr.pyEq y) = firstOcc Expr.pyEq y := by
    have := dedupBy_idem (eq := Expr.pyEq) y
    rw [dedupBy_firstOcc, dedupBy_firstOcc] at this; exact this
  rw [h2, h3]

theorem content_congr_append {c : Cls} {a a' b b' : List Expr} (h1 : content c a = content c a')
    (h2 : content c b = content c b') : content c (a ++ b) = content c (a' ++ b') := by
  rw [content_append, content_append, h1, h2]

/-! ### Congruence of `inst` -/

theorem get_congr {a b : Term} (h : a.norm = b.norm) : m.get a = m.get b := by
  unfold Mapping.get
  have : (fun p : Term × Term => a.pyEq p.1) = (fun p => b.pyEq p.1) := by
    funext p
    rw [Bool.eq_iff_iff, Term.pyEq_iff, Term.pyEq_iff, h]
  rw [this]

theorem substTerm_congr {a b : Term} (h : a.norm = b.norm) :
    (substTerm m a).norm = (substTerm m b).norm := by
  cases a with
  | const n t => cases b <;> simp [Term.norm] at h; simp [substTerm, Term.norm, h]
  | var v =>
    cases b with
    | const => simp [Term.norm] at h
    | var w =>
      simp only [substTerm]
      rw [get_congr h]
      cases m.get (.var w) with
      | none => exact h
      | some t => rfl

theorem substTerms_congr {a b : List Term} (h : a.map Term.norm = b.map Term.norm) :
    (a.map (substTerm m)).map Term.norm = (b.map (substTerm m)).map Term.norm := by
  induction a generalizing b with
  | nil => cases b <;> simp_all
  | cons x l ih =>
    cases b with
    | nil => simp at h
    | cons y r =>
      simp only [List.map_cons, List.cons.injEq] at h ⊢
      exact ⟨substTerm_congr h.1, ih h.2⟩

theorem dedupAux_norms {sa sb a b : List Expr} (hs : Expr.norms sa = Expr.norms sb)
    (h : Expr.norms a = Expr.norms b) :
    Expr.norms (dedupAux Expr.pyEq sa a) = Expr.norms (dedupAux Expr.pyEq sb b) := by
  have hmem : ∀ (x y : Expr) (s t : List Expr), x.norm = y.norm → Expr.norms s = Expr.norms t →
      memBy Expr.pyEq x s = memBy Expr.pyEq y t := by
    intro x y s t h1 h2
    rw [Bool.eq_iff_iff, memBy_iff, memBy_iff]
    simp only [Expr.pyEq_iff]
    rw [Expr.norms_eq_map, Expr.norms_eq_map] at h2
    constructor
    · rintro ⟨z, hz, e⟩
      have : z.norm ∈ t.map Expr.norm := by rw [← h2]; exact List.mem_map_of_mem hz
      obtain ⟨w, hw, e'⟩ := List.mem_map.mp this
      exact ⟨w, hw, by rw [← h1, e, e']⟩
    · rintro ⟨z, hz, e⟩
      have : z.norm ∈ s.map Expr.norm := by rw [h2]; exact List.mem_map_of_mem hz
      obtain ⟨w, hw, e'⟩ := List.mem_map.mp this
      exact ⟨w, hw, by rw [h1, e, e']⟩
  induction a generalizing sa sb b with
  | nil => cases b <;> simp_all [Expr.norms, dedupAux]
  | cons x l ih =>
    cases b with
    | nil => simp [Expr.norms] at h
    | cons y r =>
      simp [Expr.norms] at h
      rw [dedupAux, dedupAux, hmem x y sa sb h.1 hs]
      split
      · exact ih hs h.2
      · simp only [Expr.norms, h.1]
        congr 1
        apply ih _ h.2
        rw [Expr.norms_eq_map, Expr.norms_eq_map] at hs ⊢
        simp [hs, h.1]

theorem flattenEs_congr {c : Cls} {as bs : List Expr} (h : Expr.norms as = Expr.norms bs) :
    Expr.norms (flattenEs c as) = Expr.norms (flattenEs c bs) := by
  induction as generalizing bs with
  | nil => cases bs <;> simp_all [Expr.norms]
  | cons a as ih =>
    cases bs with
    | nil => simp [Expr.norms] at h
    | cons b bs =>
      simp [Expr.norms] at h
      have h1 := flattenE_congr (c := c) a b h.1
      have h2 := ih h.2
      rw [Expr.norms_eq_map, Expr.norms_eq_map] at *
      simp [flattenEs, h1, h2]

theorem norms_length {as bs : List Expr} (h : Expr.norms as = Expr.norms bs) : as.length = bs.length := by
  rw [Expr.norms_eq_map, Expr.norms_eq_map] at h
  simpa using congrArg List.length h

theorem simplOperands_congr {c : Cls} {as bs : List Expr} (h : Expr.norms as = Expr.norms bs) :
    Expr.norms (simplOperands c as) = Expr.norms (simplOperands c bs) := by
  have h1 : Expr.norms (if c.idempotent then dedupBy Expr.pyEq as else as) =
      Expr.norms (if c.idempotent then dedupBy Expr.pyEq bs else bs) := by
    split
    · exact dedupAux_norms rfl h
    · exact h
  unfold simplOperands
  generalize (if c.idempotent then dedupBy Expr.pyEq as else as) = x at h1
  generalize (if c.idempotent then dedupBy Expr.pyEq bs else bs) = y at h1
  match x, y with
  | [], [] => rfl
  | [a], [b] => simpa using h1
  | a :: a' :: l, b :: b' :: r =>
    simp only [simplLoop_eq, List.nil_append]
    exact dedupAux_norms rfl (flattenEs_congr h1)
  | [], _ :: _ => simp [Expr.norms] at h1
  | _ :: _, [] => simp [Expr.norms] at h1
  | [_], _ :: _ :: _ => simp [Expr.norms] at h1
  | _ :: _ :: _, [_] => simp [Expr.norms] at h1

theorem ofCls_norm {c : Cls} {as bs : List Expr} (h : Expr.norms as = Expr.norms bs) :
    (Expr.ofCls c as).norm = (Expr.ofCls c bs).norm := by
  cases c <;> simp [Expr.ofCls, Expr.norm, h]

theorem construct_congr {c : Cls} {as bs : List Expr} (h : Expr.norms as = Expr.norms bs) :
    (construct c as).norm = (construct c bs).norm := by
  unfold construct
  split
  · have h1 := simplOperands_congr (c := c) h
    generalize simplOperands c as = x at h1
    generalize simplOperands c bs = y at h1
    match x, y with
    | [], [] => rfl
    | [a], [b] =>
      simp only
      split
      · simpa [Expr.norms] using h1
      · exact ofCls_norm h1
    | a :: a' :: l, b :: b' :: r => exact ofCls_norm h1
    | [], _ :: _ => simp [Expr.norms] at h1
    | _ :: _, [] => simp [Expr.norms] at h1
    | [_], _ :: _ :: _ => simp [Expr.norms] at h1
    | _ :: _ :: _, [_] => simp [Expr.norms] at h1
  · exact ofCls_norm h

theorem varsNorm_dedup (vs : List Var) : varsNorm (dedupBy Var.pyEq vs) = varsNorm vs := by
  ext x
  simp only [varsNorm, List.mem_toFinset, List.mem_map]
  constructor
  · rintro ⟨v, hv, rfl⟩; exact ⟨v, dedupBy_subset hv, rfl⟩
  · rintro ⟨v, hv, rfl⟩
    obtain ⟨w, hw, e⟩ := memBy_iff.mp (dedupBy_cover (eq := Var.pyEq) (fun a => Var.pyEq_iff.mpr rfl) hv)
    exact ⟨w, hw, (Var.pyEq_iff.mp e).symm⟩

/-- Equal formulas have equal instances (when both return). -/
theorem inst_congr {a b a' b' : Expr} (h : a.norm = b.norm) (ha : a.inst m = .ok a')
    (hb : b.inst m = .ok b') : a'.norm = b'.norm := by
  have hl : ∀ as bs as' bs' : List Expr,
      (∀ a ∈ as, ∀ b a' b' : Expr, a.norm = b.norm → a.inst m = .ok a' → b.inst m = .ok b' → a'.norm = b'.norm) →
      Expr.norms as = Expr.norms bs → List.Forall₂ (fun a b => a.inst m = .ok b) as as' →
      List.Forall₂ (fun a b => a.inst m = .ok b) bs bs' → Expr.norms as' = Expr.norms bs' := by
    intro as
    induction as with
    | nil =>
      intro bs as' bs' _ h h1 h2
      cases bs with
      | nil => cases h1; cases h2; rfl
      | cons => simp [Expr.norms] at h
    | cons a as ihl =>
      intro bs as' bs' ih h h1 h2
      cases bs with
      | nil => simp [Expr.norms] at h
      | cons b bs =>
        simp [Expr.norms] at h
        cases h1 with
        | cons e1 h1 =>
          cases h2 with
          | cons e2 h2 =>
            simp only [Expr.norms]
            rw [ih a (by simp) b _ _ h.1 e1 e2,
              ihl bs _ _ (fun x hx => ih x (List.mem_cons_of_mem _ hx)) h.2 h1 h2]
  induction a using Expr.ind generalizing b a' b' with
  | hpred p =>
    cases b <;> simp [Expr.norm] at h
    obtain ⟨_, _, rfl⟩ := inst_pred_ok.mp ha
    obtain ⟨_, _, rfl⟩ := inst_pred_ok.mp hb
    simp only [Expr.norm, h.1, substTerms_congr h.2]
  | heq l r =>
    cases b <;> simp [Expr.norm] at h
    obtain ⟨_, rfl⟩ := inst_eq_ok.mp ha
    obtain ⟨_, rfl⟩ := inst_eq_ok.mp hb
    simp only [Expr.norm, substTerm_congr h.1, substTerm_congr h.2]
  | hnfun f =>
    cases b <;> simp [Expr.norm] at h
    obtain ⟨_, rfl⟩ := inst_nfun_ok.mp ha
    obtain ⟨_, rfl⟩ := inst_nfun_ok.mp hb
    simp only [Expr.norm, h.1, substTerms_congr h.2]
  | hnum n =>
    cases b <;> simp [Expr.norm] at h
    have e1 := inst_num_ok.mp ha
    have e2 := inst_num_ok.mp hb
    subst e1; subst e2
    simp [Expr.norm, h]
  | hbfun o as ih =>
    cases b <;> simp [Expr.norm] at h
    obtain ⟨rfl, h⟩ := h
    obtain ⟨as', h1, rfl⟩ := inst_bfun_ok.mp ha
    obtain ⟨bs', h2, rfl⟩ := inst_bfun_ok.mp hb
    exact construct_congr (hl as _ as' bs' (fun a haa b a' b' e1 e2 e3 => ih a haa e1 e2 e3) h h1 h2)
  | hbin o as ih =>
    cases b <;> simp [Expr.norm] at h
    obtain ⟨rfl, h⟩ := h
    obtain ⟨as', h1, rfl⟩ := inst_bin_ok.mp ha
    obtain ⟨bs', h2, rfl⟩ := inst_bin_ok.mp hb
    exact construct_congr (hl as _ as' bs' (fun a haa b a' b' e1 e2 e3 => ih a haa e1 e2 e3) h h1 h2)
  | hnot a ih =>
    cases b <;> simp [Expr.norm] at h
    obtain ⟨_, h1, rfl⟩ := inst_not_ok.mp ha
    obtain ⟨_, h2, rfl⟩ := inst_not_ok.mp hb
    simp only [Expr.norm, ih h h1 h2]
  | hquant q vs c ih =>
    cases b <;> simp [Expr.norm] at h
    obtain ⟨rfl, hv, h⟩ := h
    obtain ⟨_, h1, rfl⟩ := inst_quant_ok.mp ha
    obtain ⟨_, h2, rfl⟩ := inst_quant_ok.mp hb
    simp only [mkQuant, Expr.norm, varsNorm_dedup, ih h h1 h2, hv]
  | hwhen c e _ _ => rw [inst_when] at ha; simp at ha
  | hfall vs e _ => rw [inst_fall] at ha; simp at ha

/-! ### Instantiating a constructed object -/

/-- `a` instantiates to `b`. -/
def InstTo (m : Mapping) (a b : Expr) : Prop := a.inst m = .ok b

theorem InstTo.det {a b b' : Expr} (h : InstTo m a b) (h' : InstTo m a b') : b = b' := by
  unfold InstTo at *; rw [h] at h'; simpa using h'

theorem InstTo.dets {as bs bs' : List Expr} (h : List.Forall₂ (InstTo m) as bs)
    (h' : List.Forall₂ (InstTo m) as bs') : bs = bs' := by
  induction h generalizing bs' with
  | nil => cases h'; rfl
  | cons e _ ih =>
    cases h' with
    | cons e' h' => rw [InstTo.det e e', ih h']

theorem forall2_append_inv {α β} {R : α → β → Prop} {a b : List α} {l : List β}
    (h : List.Forall₂ R (a ++ b) l) : ∃ x y, l = x ++ y ∧ List.Forall₂ R a x ∧ List.Forall₂ R b y := by
  induction a generalizing l with
  | nil => exact ⟨[], l, rfl, .nil, h⟩
  | cons e a ih =>
    cases h with
    | cons e' h =>
      obtain ⟨x, y, rfl, h1, h2⟩ := ih h
      exact ⟨_ :: x, y, rfl, .cons e' h1, h2⟩

theorem forall2_append {α β} {R : α → β → Prop} {a b : List α} {x y : List β}
    (h1 : List.Forall₂ R a x) (h2 : List.Forall₂ R b y) : List.Forall₂ R (a ++ b) (x ++ y) := by
  induction h1 with
  | nil => exact h2
  | cons e _ ih => exact .cons e ih

/-- Dropping later equal operands before instantiating changes nothing afterwards. -/
theorem inst_dedupAux {c : Cls} {sa sa2 l l2 d2 seen : List Expr}
    (hsa : List.Forall₂ (InstTo m) sa sa2) (hl : List.Forall₂ (InstTo m) l l2)
    (hd : List.Forall₂ (InstTo m) (dedupAux Expr.pyEq sa l) d2)
    (hseen : ∀ a ∈ sa2, ∀ x ∈ flattenE c a, memBy Expr.pyEq x seen = true) :
    dedupAux Expr.pyEq seen (flattenEs c d2) = dedupAux Expr.pyEq seen (flattenEs c l2) := by
  induction hl generalizing sa sa2 d2 seen with
  | nil =>
    simp only [dedupAux] at hd
    cases hd; rfl
  | @cons x x2 l l2 hx hl ih =>
    rw [dedupAux] at hd
    split at hd
    · next hmem =>
      rw [ih hsa hd hseen, flattenEs, dedupAux_append]
      obtain ⟨y, hy, e⟩ := memBy_iff.mp hmem
      obtain ⟨y2, hy2, e2⟩ := forall2_mem' hsa y hy
      have hn := flattenE_congr (c := c) x2 y2 (inst_congr ((Expr.pyEq_iff _ _).mp e) hx e2)
      have : ∀ z ∈ flattenE c x2, memBy Expr.pyEq z seen = true := by
        intro z hz
        have : z.norm ∈ (flattenE c y2).map Expr.norm := by
          rw [← hn]; exact List.mem_map_of_mem hz
        obtain ⟨w, hw, hwn⟩ := List.mem_map.mp this
        obtain ⟨s, hs, e'⟩ := memBy_iff.mp (hseen y2 hy2 w hw)
        exact memBy_iff.mpr ⟨s, hs, Expr.pyEq_trans ((Expr.pyEq_iff _ _).mpr hwn.symm) e'⟩
      rw [dedupAux_skip this]; simp
    · cases hd with
      | cons hx' hd =>
        have := InstTo.det hx' hx
        subst this
        rw [flattenEs, flattenEs, dedupAux_append, dedupAux_append]
        congr 1
        refine ih (forall2_append hsa (.cons hx .nil)) hd ?_
        intro a ha z hz
        rw [memBy_append, Bool.or_eq_true]
        rcases List.mem_append.mp ha with ha | ha
        · exact Or.inl (hseen a ha z hz)
        · simp at ha; subst ha
          have := dedupAux_cover (eq := Expr.pyEq) Expr.pyEq_refl (seen := seen) hz
          rw [memBy_append, Bool.or_eq_true] at this
          exact this

theorem inst_dedup {c : Cls} {l l2 d2 : List Expr} (hl : List.Forall₂ (InstTo m) l l2)
    (hd : List.Forall₂ (InstTo m) (dedupBy Expr.pyEq l) d2) : content c d2 = content c l2 :=
  inst_dedupAux (sa := []) (sa2 := []) .nil hl hd (by simp)

theorem forall2_sub {l l2 k : List Expr} (hl : List.Forall₂ (InstTo m) l l2) (hk : ∀ x ∈ k, x ∈ l) :
    ∃ k2, List.Forall₂ (InstTo m) k k2 := by
  induction k with
  | nil => exact ⟨[], .nil⟩
  | cons x k ih =>
    obtain ⟨k2, hk2⟩ := ih (fun y hy => hk y (List.mem_cons_of_mem _ hy))
    obtain ⟨y, _, e⟩ := forall2_mem' hl x (hk x (by simp))
    exact ⟨y :: k2, .cons e hk2⟩

/-- Flattening before instantiating changes nothing afterwards. -/
theorem inst_flatten {c : Cls} (hm : c.isMeta = true) (hi : c.idempotent = true) {l l2 : List Expr}
    (hg : ∀ a ∈ l, a.Good) (hl : List.Forall₂ (InstTo m) l l2) :
    ∃ f2, List.Forall₂ (InstTo m) (flattenEs c l) f2 ∧ content c f2 = content c l2 := by
  have key : ∀ n, ∀ l l2 : List Expr, Expr.sizes l = n → (∀ a ∈ l, a.Good) → List.Forall₂ (InstTo m) l l2 →
      ∃ f2, List.Forall₂ (InstTo m) (flattenEs c l) f2 ∧ content c f2 = content c l2 := by
    intro n
    induction n using Nat.strongRecOn with
    | _ n ih =>
      intro l l2 hn hg hl
      cases hl with
      | nil => exact ⟨[], .nil, rfl⟩
      | @cons e e2 rest rest2 he hr =>
        have hpos : 0 < e.size := by cases e <;> simp [Expr.size]
        simp only [Expr.sizes] at hn
        obtain ⟨r2, hr2, hc⟩ := ih (Expr.sizes rest) (by omega) rest rest2 rfl
          (fun a ha => hg a (List.mem_cons_of_mem _ ha)) hr
        have : ∃ x2, List.Forall₂ (InstTo m) (flattenE c e) x2 ∧ content c x2 = content c [e2] := by
          cases ho : e.operandsIf c with
          | none => rw [flattenE_none ho]; exact ⟨[e2], .cons he .nil, rfl⟩
          | some bs =>
            rw [flattenE_some ho]
            have hs := Expr.size_operands ho
            have hgb := good_operands ho (hg e (by simp))
            have eo := ofCls_operandsIf.mp ho
            subst eo
            obtain ⟨bs2, hb2, rfl⟩ := inst_cls_ok.mp he
            obtain ⟨x2, hx2, hcx⟩ := ih (Expr.sizes bs) (by omega) bs bs2 rfl hgb hb2
            refine ⟨x2, hx2, ?_⟩
            rw [hcx, content_construct hm hi]
            intro b hb
            obtain ⟨a, ha, e⟩ := forall2_mem hb2 b hb
            exact inst_good (hgb a ha) e
        obtain ⟨x2, hx2, hcx⟩ := this
        refine ⟨x2 ++ r2, ?_, ?_⟩
        · rw [flattenEs]; exact forall2_append hx2 hr2
        · rw [content_congr_append hcx hc]; rfl
  exact key _ l l2 rfl hg hl

theorem inst_construct_bop {c : Cls} (hm : c.isMeta = true) (hi : c.idempotent = true) {l l2 : List Expr}
    (hg : ∀ a ∈ l, a.Good) (hl : List.Forall₂ (InstTo m) l l2) :
    InstTo m (construct c l) (construct c l2) := by
  have hg2 : ∀ b ∈ l2, b.Good := by
    intro b hb
    obtain ⟨a, ha, h⟩ := forall2_mem hl b hb
    exact inst_good (hg a ha) h
  obtain ⟨f2, hf2, hcf⟩ := inst_flatten hm hi hg hl
  obtain ⟨k2, hk2⟩ := forall2_sub hf2 (k := content c l) (fun x hx => dedupBy_subset hx)
  have hck : content c k2 = content c l2 := by rw [inst_dedup hf2 hk2, hcf]
  have hgk : ∀ b ∈ k2, b.Good := by
    intro b hb
    obtain ⟨a, ha, h⟩ := forall2_mem hk2 b hb
    exact inst_good (flatten_closed (P := Expr.Good) c (fun _ _ h g => good_operands h g) l hg a
      (dedupBy_subset ha)) h
  have : InstTo m (construct c l) (construct c k2) := by
    rw [construct_eq_node hm hi hg]
    generalize content c l = k at hk2
    match k, hk2 with
    | [], hk2 => exact inst_cls_ok.mpr ⟨k2, hk2, rfl⟩
    | [x], hk2 =>
      cases hk2 with
      | cons h1 h2 =>
        cases h2
        simp only [construct, hm, simplOperands, hi, dedupBy_length_one, if_true]
        exact h1
    | x :: y :: r, hk2 => exact inst_cls_ok.mpr ⟨k2, hk2, rfl⟩
  rw [construct_eq_node hm hi hgk, hck, ← construct_eq_node hm hi hg2] at this
  exact this

theorem construct_fop_flat {o : FOp} (hm : (Cls.fop o).isMeta = true) {l : List Expr}
    (hf : ∀ a ∈ l, a.operandsIf (.fop o) = none) :
    construct (.fop o) l = .bfun o (dedupBy Expr.pyEq l) := by
  by_cases h2 : 2 ≤ l.length
  · have hs := simplOperands_loop (c := .fop o) (args := l) (by simpa [Cls.idempotent] using h2)
    simp only [Cls.idempotent, Bool.false_eq_true, if_false] at hs
    rw [flattenEs_flat hf] at hs
    simp only [construct, hm, if_true, hs, Cls.idempotent, Bool.false_eq_true, if_false]
    generalize dedupBy Expr.pyEq l = k
    match k with
    | [] => rfl
    | [x] => rfl
    | _ :: _ :: _ => rfl
  · match l, h2 with
    | [], _ => simp [construct, hm, simplOperands, Expr.ofCls, Cls.idempotent, dedupBy, dedupAux]
    | [x], _ => simp [construct, hm, simplOperands, Expr.ofCls, Cls.idempotent, dedupBy_length_one]
    | _ :: _ :: _, h => simp at h

theorem inst_construct_fop {o : FOp} {l l2 : List Expr} (hn : ∀ a ∈ l, Numeric a)
    (hf : (Cls.fop o).isMeta = true → l.length ≤ 1 ∨ ∀ a ∈ l, a.operandsIf (.fop o) = none)
    (hl : List.Forall₂ (InstTo m) l l2) :
    InstTo m (construct (.fop o) l) (construct (.fop o) l2) := by
  by_cases hm : (Cls.fop o).isMeta = true
  · rcases hf hm with h1 | hf
    · have : construct (.fop o) l = Expr.ofCls (.fop o) l := by
        match l, h1 with
        | [], _ => simp [construct, hm, simplOperands, Expr.ofCls, Cls.idempotent]
        | [x], _ => simp [construct, hm, simplOperands, Expr.ofCls, Cls.idempotent]
        | _ :: _ :: _, h => simp at h
      rw [this]
      exact inst_cls_ok.mpr ⟨l2, hl, rfl⟩
    · rw [construct_fop_flat hm hf]
      obtain ⟨d2, h⟩ := forall2_sub hl (k := dedupBy Expr.pyEq l) (fun x hx => dedupBy_subset hx)
      refine inst_bfun_ok.mpr ⟨d2, h, ?_⟩
      have flat2 : ∀ k k2 : List Expr, (∀ a ∈ k, a ∈ l) → List.Forall₂ (InstTo m) k k2 →
          ∀ b ∈ k2, b.operandsIf (.fop o) = none := by
        intro k k2 hk hk2 b hb
        obtain ⟨a, ha, e⟩ := forall2_mem hk2 b hb
        exact (inst_numeric e (hn a (hk a ha))).2 o (hf a (hk a ha))
      have hd2 := flat2 _ _ (fun a ha => dedupBy_subset ha) h
      have hl2 := flat2 _ _ (fun a ha => ha) hl
      rw [construct_fop_flat hm hd2, construct_fop_flat hm hl2]
      have := inst_dedup (c := .fop o) hl h
      rw [content, content, flattenEs_flat hd2, flattenEs_flat hl2] at this
      rw [this]
  · have : construct (.fop o) l = Expr.ofCls (.fop o) l := by simp [construct, hm]
    rw [this]
    exact inst_cls_ok.mpr ⟨l2, hl, rfl⟩

theorem stable_fop {o : FOp} (hm : (Cls.fop o).isMeta = true) {as : List Expr} (g : Stable (.fop o) as) :
    as.length ≤ 1 ∨ ∀ a ∈ as, a.operandsIf (.fop o) = none := by
  by_cases h1 : 2 ≤ as.length
  · right
    have hs := simplOperands_loop (c := .fop o) (args := as) (by simpa [Cls.idempotent] using h1)
    simp only [Cls.idempotent, Bool.false_eq_true, if_false] at hs
    have hcd := canonical_dedup (.fop o) as
    rw [← hs] at hcd
    unfold Stable construct at g
    simp only [hm, if_true, Cls.idempotent, Bool.false_eq_true, if_false] at g
    have e : simplOperands (.fop o) as = as := by
      revert g
      generalize simplOperands (.fop o) as = l
      match l with
      | [] => simp [Expr.ofCls]
      | [x] => simp [Expr.ofCls]
      | _ :: _ :: _ => simp [Expr.ofCls]
    rw [e] at hcd; exact hcd.flat
  · left; omega

/-! ### Two stages -/

theorem subst_comp {m1 m2 m12 : Mapping} (hc : ToConstants m1)
    (h : ∀ v, m12.get (.var v) = (m1.get (.var v)).or (m2.get (.var v))) (t : Term) :
    substTerm m2 (substTerm m1 t) = substTerm m12 t := by
  cases t with
  | const => rfl
  | var v =>
    simp only [substTerm, h]
    cases hg : m1.get (.var v) with
    | none => simp
    | some t =>
      obtain ⟨n, tag, rfl⟩ := get_const hc hg
      simp

theorem subst_comps {m1 m2 m12 : Mapping} (hc : ToConstants m1)
    (h : ∀ v, m12.get (.var v) = (m1.get (.var v)).or (m2.get (.var v))) (ts : List Term) :
    (ts.map (substTerm m1)).map (substTerm m2) = ts.map (substTerm m12) := by
  rw [List.map_map]
  exact List.map_congr_left (fun t _ => subst_comp hc h t)

theorem inst_comp {m1 m2 m12 : Mapping} (hc : ToConstants m1)
    (hg : ∀ v, m12.get (.var v) = (m1.get (.var v)).or (m2.get (.var v)))
    {f g1 g : Expr} (gd : f.Good) (hw : WellSorted f) (h1 : f.inst m1 = .ok g1)
    (h : f.inst m12 = .ok g) : g1.inst m2 = .ok g := by
  have hl : ∀ as as1 as12 : List Expr,
      (∀ a ∈ as, ∀ b1 b : Expr, a.Good → WellSorted a → a.inst m1 = .ok b1 →
        a.inst m12 = .ok b → b1.inst m2 = .ok b) →
      (∀ a ∈ as, a.Good) → (∀ a ∈ as, WellSorted a) →
      List.Forall₂ (InstTo m1) as as1 → List.Forall₂ (InstTo m12) as as12 →
      List.Forall₂ (InstTo m2) as1 as12 := by
    intro as as1 as12 ih hgd hws h1
    induction h1 generalizing as12 with
    | nil => intro h12; cases h12; exact .nil
    | cons e1 _ ihl =>
      intro h12
      cases h12 with
      | cons e12 h12 =>
        exact .cons (ih _ (by simp) _ _ (hgd _ (by simp)) (hws _ (by simp)) e1 e12)
          (ihl _ (fun a ha => ih a (List.mem_cons_of_mem _ ha)) (fun a ha => hgd a (List.mem_cons_of_mem _ ha))
              (fun a ha => hws a (List.mem_cons_of_mem _ ha)) h12)
  induction f using Expr.ind generalizing g1 g with
  | hpred p =>
    obtain ⟨_, _, rfl⟩ := inst_pred_ok.mp h1
    obtain ⟨h3, h4, rfl⟩ := inst_pred_ok.mp h
    rw [inst_pred_ok]
    simp only [subst_comps hc hg]
    exact ⟨h3, h4, trivial⟩
  | heq l r =>
    obtain ⟨_, rfl⟩ := inst_eq_ok.mp h1
    obtain ⟨h4, rfl⟩ := inst_eq_ok.mp h
    rw [inst_eq_ok, subst_comp hc hg, subst_comp hc hg]
    exact ⟨h4, rfl⟩
  | hnfun f =>
    obtain ⟨_, rfl⟩ := inst_nfun_ok.mp h1
    obtain ⟨h3, rfl⟩ := inst_nfun_ok.mp h
    rw [inst_nfun_ok]
    simp only [subst_comps hc hg]
    exact ⟨h3, trivial⟩
  | hnum n =>
    have e1 := inst_num_ok.mp h1
    have e2 := inst_num_ok.mp h
    subst e1; subst e2
    exact inst_num_ok.mpr rfl
  | hbfun o as ih =>
    obtain ⟨as1, ha1, rfl⟩ := inst_bfun_ok.mp h1
    obtain ⟨as12, ha12, rfl⟩ := inst_bfun_ok.mp h
    have h2 := hl as as1 as12 (fun a ha b1 b e1 e2 e3 e4 => ih a ha e1 e2 e3 e4) (goods_iff.mp gd.2)
      (wellSorteds_iff.mp hw.2) ha1 ha12
    refine inst_construct_fop ?_ ?_ h2
    · intro b hb
      obtain ⟨a, ha, e⟩ := forall2_mem ha1 b hb
      exact (inst_numeric e (hw.1 a ha)).1
    · intro hm
      rcases stable_fop hm gd.1 with h | h
      · left; rw [← ha1.length_eq]; exact h
      · right
        intro b hb
        obtain ⟨a, ha, e⟩ := forall2_mem ha1 b hb
        exact (inst_numeric e (hw.1 a ha)).2 o (h a ha)
  | hbin o as ih =>
    obtain ⟨as1, ha1, rfl⟩ := inst_bin_ok.mp h1
    obtain ⟨as12, ha12, rfl⟩ := inst_bin_ok.mp h
    have h2 := hl as as1 as12 (fun a ha b1 b e1 e2 e3 e4 => ih a ha e1 e2 e3 e4) (goods_iff.mp gd.2)
      (wellSorteds_iff.mp hw) ha1 ha12
    have hgd1 : ∀ b ∈ as1, b.Good := by
      intro b hb
      obtain ⟨a, ha, e⟩ := forall2_mem ha1 b hb
      exact inst_good (goods_iff.mp gd.2 a ha) e
    cases o with
    | and => exact inst_construct_bop rfl rfl hgd1 h2
    | or => exact inst_construct_bop rfl rfl hgd1 h2
    | imply => exact inst_bin_ok.mpr ⟨as12, h2, rfl⟩
    | oneof => exact inst_bin_ok.mpr ⟨as12, h2, rfl⟩
  | hnot a ih =>
    obtain ⟨_, e1, rfl⟩ := inst_not_ok.mp h1
    obtain ⟨_, e2, rfl⟩ := inst_not_ok.mp h
    exact inst_not_ok.mpr ⟨_, ih gd hw e1 e2, rfl⟩
  | hquant q vs c ih =>
    obtain ⟨_, e1, rfl⟩ := inst_quant_ok.mp h1
    obtain ⟨_, e2, rfl⟩ := inst_quant_ok.mp h
    refine inst_quant_ok.mpr ⟨_, ih gd.2 hw e1 e2, ?_⟩
    rw [mkQuant, mkQuant, dedupBy_idem]
  | hwhen c e _ _ => rw [inst_when] at h; simp at h
  | hfall vs e _ => rw [inst_fall] at h; simp at h

end Pddl
