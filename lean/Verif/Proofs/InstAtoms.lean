/- Instantiation and the atoms of a formula; the empty mapping. -/
import Verif.Proofs.InstSem

namespace Pddl
open Spec

variable {m : Mapping}

theorem mem_atomsAll {x} {as : List Expr} : x ∈ atomsAll as ↔ ∃ a ∈ as, x ∈ atoms a := by
  induction as with
  | nil => simp [atomsAll]
  | cons a as ih => simp [atomsAll, ih]

theorem atoms_ofCls (c : Cls) (as : List Expr) : atoms (Expr.ofCls c as) = atomsAll as := by
  cases c <;> simp [Expr.ofCls, atoms]

theorem atomsAll_append (a b : List Expr) : atomsAll (a ++ b) = atomsAll a ++ atomsAll b := by
  induction a with
  | nil => rfl
  | cons x l ih => simp [atomsAll, ih]

theorem atomsAll_flatten (c : Cls) (as : List Expr) : atomsAll (flattenEs c as) = atomsAll as := by
  have key : ∀ n, ∀ as : List Expr, Expr.sizes as = n → atomsAll (flattenEs c as) = atomsAll as := by
    intro n
    induction n using Nat.strongRecOn with
    | _ n ih =>
      intro as hn
      match as with
      | [] => rfl
      | e :: rest =>
        have hpos : 0 < e.size := by cases e <;> simp [Expr.size]
        simp only [Expr.sizes] at hn
        rw [flattenEs, atomsAll_append, ih (Expr.sizes rest) (by omega) rest rfl, atomsAll]
        congr 1
        cases h : e.operandsIf c with
        | none => rw [flattenE_none h]; simp [atomsAll]
        | some bs =>
          rw [flattenE_some h]
          have := Expr.size_operands h
          rw [ih (Expr.sizes bs) (by omega) bs rfl]
          rw [ofCls_operandsIf] at h
          rw [h, atoms_ofCls]
  exact key _ as rfl

/-- Which operands a constructor call keeps. -/
theorem construct_content (c : Cls) (as : List Expr) :
    ∃ l, (construct c as = Expr.ofCls c l ∨ l = [construct c as]) ∧
      (l = as ∨ l = dedupBy Expr.pyEq as ∨ l = dedupBy Expr.pyEq (flattenEs c as)) := by
  by_cases hm : c.isMeta = true
  · refine ⟨simplOperands c as, ?_, ?_⟩
    · simp only [construct, hm, if_true]
      generalize simplOperands c as = l
      match l with
      | [] => exact Or.inl rfl
      | [x] => by_cases hi : c.idempotent = true <;> simp [hi]
      | _ :: _ :: _ => exact Or.inl rfl
    · by_cases h2 : 2 ≤ (if c.idempotent then dedupBy Expr.pyEq as else as).length
      · rw [simplOperands_loop h2]
        right; right
        split
        · rw [dedup_flatten_dedup]
        · rfl
      · have : simplOperands c as = if c.idempotent then dedupBy Expr.pyEq as else as := by
          unfold simplOperands
          generalize (if c.idempotent then dedupBy Expr.pyEq as else as) = old at *
          match old, h2 with
          | [], _ => rfl
          | [x], _ => rfl
          | _ :: _ :: _, h => simp at h
        rw [this]
        split
        · exact Or.inr (Or.inl rfl)
        · exact Or.inl rfl
  · exact ⟨as, Or.inl (by simp [construct, hm]), Or.inl rfl⟩

/-- Normal form of an atom with respect to `==` of its terms. -/
def natom (x : Str × List Term) : Str × List NTerm := (x.1, x.2.map Term.norm)

theorem atoms_congr {a b : Expr} (h : a.norm = b.norm) : (atoms a).map natom = (atoms b).map natom := by
  have hl : ∀ as bs : List Expr, (∀ a ∈ as, ∀ b : Expr, a.norm = b.norm → (atoms a).map natom = (atoms b).map natom) →
      Expr.norms as = Expr.norms bs → (atomsAll as).map natom = (atomsAll bs).map natom := by
    intro as
    induction as with
    | nil => intro bs _ h; cases bs <;> simp_all [Expr.norms]
    | cons a as ihl =>
      intro bs ih h
      cases bs with
      | nil => simp [Expr.norms] at h
      | cons b bs =>
        simp [Expr.norms] at h
        simp only [atomsAll, List.map_append]
        rw [ih a (by simp) b h.1, ihl bs (fun x hx => ih x (List.mem_cons_of_mem _ hx)) h.2]
  induction a using Expr.ind generalizing b with
  | hpred p => cases b <;> simp [Expr.norm] at h; simp [atoms, natom, h]
  | heq l r => cases b <;> simp [Expr.norm] at h; simp [atoms, natom, h]
  | hnfun f => cases b <;> simp [Expr.norm] at h; simp [atoms, natom, h]
  | hnum n => cases b <;> simp [Expr.norm] at h; simp [atoms]
  | hbfun o as ih =>
    cases b <;> simp [Expr.norm] at h
    exact hl as _ (fun a ha b h => ih a ha h) h.2
  | hbin o as ih =>
    cases b <;> simp [Expr.norm] at h
    exact hl as _ (fun a ha b h => ih a ha h) h.2
  | hnot a ih => cases b <;> simp [Expr.norm] at h; simp only [atoms]; exact ih h
  | hquant q vs c ih => cases b <;> simp [Expr.norm] at h; simp only [atoms]; exact ih h.2.2
  | hwhen c e ih1 ih2 =>
    cases b <;> simp [Expr.norm] at h
    simp only [atoms, List.map_append]; rw [ih1 h.1, ih2 h.2]
  | hfall vs e ih => cases b <;> simp [Expr.norm] at h; simp only [atoms]; exact ih h.2

theorem atoms_construct_sub {c : Cls} {as : List Expr} {x} (h : x ∈ atoms (construct c as)) :
    x ∈ atomsAll as := by
  obtain ⟨l, h1, h2⟩ := construct_content c as
  have hx : x ∈ atomsAll l := by
    rcases h1 with h1 | h1
    · rw [h1, atoms_ofCls] at h; exact h
    · rw [h1]; simpa [atomsAll] using h
  rcases h2 with rfl | rfl | rfl
  · exact hx
  · obtain ⟨a, ha, e⟩ := mem_atomsAll.mp hx
    exact mem_atomsAll.mpr ⟨a, dedupBy_subset ha, e⟩
  · obtain ⟨a, ha, e⟩ := mem_atomsAll.mp hx
    rw [← atomsAll_flatten c]
    exact mem_atomsAll.mpr ⟨a, dedupBy_subset ha, e⟩

theorem atomsAll_dedup_cover {as : List Expr} {x} (h : x ∈ atomsAll as) :
    ∃ y ∈ atomsAll (dedupBy Expr.pyEq as), natom y = natom x := by
  obtain ⟨a, ha, hx⟩ := mem_atomsAll.mp h
  obtain ⟨b, hb, e⟩ := memBy_iff.mp (dedupBy_cover (eq := Expr.pyEq) Expr.pyEq_refl ha)
  have := atoms_congr ((Expr.pyEq_iff _ _).mp e)
  have : natom x ∈ (atoms b).map natom := by rw [← this]; exact List.mem_map_of_mem hx
  obtain ⟨y, hy, e'⟩ := List.mem_map.mp this
  exact ⟨y, mem_atomsAll.mpr ⟨b, hb, hy⟩, e'⟩

theorem atoms_construct_cover {c : Cls} {as : List Expr} {x} (h : x ∈ atomsAll as) :
    ∃ y ∈ atoms (construct c as), natom y = natom x := by
  obtain ⟨l, h1, h2⟩ := construct_content c as
  have hat : atoms (construct c as) = atomsAll l := by
    rcases h1 with h1 | h1
    · rw [h1, atoms_ofCls]
    · rw [h1]; simp [atomsAll]
  rw [hat]
  rcases h2 with rfl | rfl | rfl
  · exact ⟨x, h, rfl⟩
  · exact atomsAll_dedup_cover h
  · rw [← atomsAll_flatten c] at h; exact atomsAll_dedup_cover h

theorem inst_atoms {f g : Expr} (h : f.inst m = .ok g) :
    (∀ x ∈ atoms g, ∃ y ∈ atoms f, x = (y.1, y.2.map (substTerm m))) ∧
    (∀ y ∈ atoms f, ∃ x ∈ atoms g, natom x = natom (y.1, y.2.map (substTerm m))) := by
  have hl : ∀ (c : Cls) (as bs : List Expr),
      (∀ a ∈ as, ∀ b : Expr, a.inst m = .ok b →
        (∀ x ∈ atoms b, ∃ y ∈ atoms a, x = (y.1, y.2.map (substTerm m))) ∧
        (∀ y ∈ atoms a, ∃ x ∈ atoms b, natom x = natom (y.1, y.2.map (substTerm m)))) →
      List.Forall₂ (fun a b => a.inst m = .ok b) as bs →
      (∀ x ∈ atoms (construct c bs), ∃ y ∈ atomsAll as, x = (y.1, y.2.map (substTerm m))) ∧
      (∀ y ∈ atomsAll as, ∃ x ∈ atoms (construct c bs), natom x = natom (y.1, y.2.map (substTerm m))) := by
    intro c as bs ih h2
    constructor
    · intro x hx
      obtain ⟨b, hb, hx⟩ := mem_atomsAll.mp (atoms_construct_sub hx)
      obtain ⟨a, ha, e⟩ := forall2_mem h2 b hb
      obtain ⟨y, hy, e'⟩ := (ih a ha b e).1 x hx
      exact ⟨y, mem_atomsAll.mpr ⟨a, ha, hy⟩, e'⟩
    · intro y hy
      obtain ⟨a, ha, hy⟩ := mem_atomsAll.mp hy
      obtain ⟨b, hb, e⟩ := forall2_mem' h2 a ha
      obtain ⟨x, hx, e'⟩ := (ih a ha b e).2 y hy
      obtain ⟨z, hz, e''⟩ := atoms_construct_cover (c := c) (mem_atomsAll.mpr ⟨b, hb, hx⟩)
      exact ⟨z, hz, e''.trans e'⟩
  induction f using Expr.ind generalizing g with
  | hpred p => obtain ⟨_, _, rfl⟩ := inst_pred_ok.mp h; simp [atoms]
  | heq l r => obtain ⟨_, rfl⟩ := inst_eq_ok.mp h; simp [atoms]
  | hnfun f => obtain ⟨_, rfl⟩ := inst_nfun_ok.mp h; simp [atoms]
  | hnum n => have := inst_num_ok.mp h; subst this; simp [atoms]
  | hbfun o as ih =>
    obtain ⟨bs, h2, rfl⟩ := inst_bfun_ok.mp h
    exact hl (.fop o) as bs (fun a ha b h => ih a ha h) h2
  | hbin o as ih =>
    obtain ⟨bs, h2, rfl⟩ := inst_bin_ok.mp h
    exact hl (.bop o) as bs (fun a ha b h => ih a ha h) h2
  | hnot a ih => obtain ⟨b, h1, rfl⟩ := inst_not_ok.mp h; simp only [atoms]; exact ih h1
  | hquant q vs c ih =>
    obtain ⟨b, h1, rfl⟩ := inst_quant_ok.mp h; simp only [mkQuant, atoms]; exact ih h1
  | hwhen c e _ _ => rw [inst_when] at h; simp at h
  | hfall vs e _ => rw [inst_fall] at h; simp at h

theorem substTerm_nil (t : Term) : substTerm [] t = t := by
  cases t <;> simp [substTerm, Mapping.get]

theorem noEffects_iff {as : List Expr} : NoEffects as ↔ ∀ a ∈ as, NoEffect a := by
  induction as with
  | nil => simp [NoEffects]
  | cons a as ih => simp [NoEffects, ih]

theorem inst_nil {f : Expr} (g : f.Good) (hn : NoEffect f) : f.inst [] = .ok f := by
  have hmap : ∀ ts : List Term, ts.map (substTerm []) = ts := by
    intro ts; exact (List.map_congr_left (fun t _ => substTerm_nil t)).trans (List.map_id ts)
  have hl : ∀ as : List Expr, (∀ a ∈ as, a.inst [] = .ok a) →
      List.Forall₂ (fun a b => a.inst [] = .ok b) as as := by
    intro as h
    induction as with
    | nil => exact .nil
    | cons a as ih => exact .cons (h a (by simp)) (ih (fun x hx => h x (List.mem_cons_of_mem _ hx)))
  induction f using Expr.ind with
  | hpred p => rw [inst_pred_ok, hmap]; exact ⟨g.1, g.2, rfl⟩
  | heq l r => rw [inst_eq_ok, substTerm_nil, substTerm_nil]; exact ⟨g, rfl⟩
  | hnfun f => rw [inst_nfun_ok, hmap]; exact ⟨g, rfl⟩
  | hnum n => rw [inst_num_ok]
  | hbfun o as ih =>
    rw [inst_bfun_ok]
    exact ⟨as, hl as (fun a ha => ih a ha (goods_iff.mp g.2 a ha) (noEffects_iff.mp hn a ha)), g.1.symm⟩
  | hbin o as ih =>
    rw [inst_bin_ok]
    exact ⟨as, hl as (fun a ha => ih a ha (goods_iff.mp g.2 a ha) (noEffects_iff.mp hn a ha)), g.1.symm⟩
  | hnot a ih => rw [inst_not_ok]; exact ⟨a, ih g hn, rfl⟩
  | hquant q vs c ih =>
    rw [inst_quant_ok]; exact ⟨c, ih g.2 hn, by rw [mkQuant, dedupBy_eq_self g.1]⟩
  | hwhen c e _ _ => exact absurd hn (by simp [NoEffect])
  | hfall vs e _ => exact absurd hn (by simp [NoEffect])

/-- With a conditional or universal effect inside, instantiation raises. -/
theorem inst_effect {f : Expr} (h : ¬ NoEffect f) (g : Expr) : f.inst m ≠ .ok g := by
  have hl : ∀ as : List Expr, (∀ a ∈ as, ¬ NoEffect a → ∀ g, a.inst m ≠ .ok g) → ¬ NoEffects as →
      ∀ bs, ¬ List.Forall₂ (fun a b => a.inst m = .ok b) as bs := by
    intro as ih hn bs h2
    apply hn
    rw [noEffects_iff]
    intro a ha
    by_contra hna
    obtain ⟨b, _, e⟩ := forall2_mem' h2 a ha
    exact ih a ha hna b e
  intro e
  induction f using Expr.ind generalizing g with
  | hbfun o as ih =>
    obtain ⟨bs, h2, rfl⟩ := inst_bfun_ok.mp e
    exact hl as (fun a ha h g e => ih a ha h g e) h bs h2
  | hbin o as ih =>
    obtain ⟨bs, h2, rfl⟩ := inst_bin_ok.mp e
    exact hl as (fun a ha h g e => ih a ha h g e) h bs h2
  | hnot a ih => obtain ⟨b, h1, rfl⟩ := inst_not_ok.mp e; exact ih h b h1
  | hquant q vs c ih => obtain ⟨b, h1, rfl⟩ := inst_quant_ok.mp e; exact ih h b h1
  | hwhen c e' _ _ => rw [inst_when] at e; simp at e
  | hfall vs e' _ => rw [inst_fall] at e; simp at e
  | _ => exact h (by simp [NoEffect])

end Pddl
