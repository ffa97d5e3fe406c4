/-
Equal domains, problems and plans mean the same.
-/
import Verif.Spec.Execute
import Verif.Proofs.InstComp
import Verif.Proofs.Problem
import Verif.Proofs.EffectSem

namespace Pddl
open Spec

/-- Two mappings with equal keys and equal values in the same places. -/
def MapEq (m m' : Mapping) : Prop :=
  List.Forall₂ (fun p q : Term × Term => p.1.norm = q.1.norm ∧ p.2.norm = q.2.norm) m m'

theorem pyEq_congr2 {a b x y : Term} (h : a.norm = b.norm) (h' : x.norm = y.norm) : a.pyEq x = b.pyEq y := by
  rw [Bool.eq_iff_iff, Term.pyEq_iff, Term.pyEq_iff, h, h']

theorem get_congr2 {m m' : Mapping} (hm : MapEq m m') {a b : Term} (h : a.norm = b.norm) :
    (m.get a).map Term.norm = (m'.get b).map Term.norm := by
  unfold Mapping.get
  induction hm with
  | nil => rfl
  | @cons p q l l' hpq _ ih =>
    simp only [List.find?_cons]
    rw [pyEq_congr2 h hpq.1]
    cases b.pyEq q.1 with
    | true => simp [hpq.2]
    | false => exact ih

theorem set_congr2 {m m' : Mapping} (hm : MapEq m m') {k k' v v' : Term} (hk : k.norm = k'.norm) (hv : v.norm = v'.norm) :
    MapEq (m.set k v) (m'.set k' v') := by
  have ha : m.any (fun p => k.pyEq p.1) = m'.any (fun p => k'.pyEq p.1) := by
    induction hm with
    | nil => rfl
    | cons hpq _ ih => simp only [List.any_cons]; rw [pyEq_congr2 hk hpq.1, ih]
  unfold Mapping.set
  rw [ha]
  split
  · rename_i hx; clear ha hx
    induction hm with
    | nil => exact .nil
    | cons hpq _ ih =>
      simp only [List.map_cons]
      refine .cons ?_ ih
      rw [pyEq_congr2 hk hpq.1]
      split
      · exact ⟨hpq.1, hv⟩
      · exact hpq
  · rename_i hx; clear ha hx
    induction hm with
    | nil => exact .cons ⟨hk, hv⟩ .nil
    | cons hpq _ ih => exact .cons hpq ih

theorem ofZip_congr2 {ps ps' as as' : List Term} (hp : ps.map Term.norm = ps'.map Term.norm)
    (ha : as.map Term.norm = as'.map Term.norm) : MapEq (Mapping.ofZip ps as) (Mapping.ofZip ps' as') := by
  unfold Mapping.ofZip
  have : ∀ m m' : Mapping, MapEq m m' → MapEq ((ps.zip as).foldl (fun m p => m.set p.1 p.2) m)
      ((ps'.zip as').foldl (fun m p => m.set p.1 p.2) m') := by
    induction ps generalizing ps' as as' with
    | nil => cases ps' <;> simp at hp; simp
    | cons p ps ih =>
      cases ps' with
      | nil => simp at hp
      | cons p' ps' =>
        cases as with
        | nil => cases as' <;> simp at ha; simp
        | cons a as =>
          cases as' with
          | nil => simp at ha
          | cons a' as' =>
            simp only [List.map_cons, List.cons.injEq] at hp ha
            intro m m' hm
            simp only [List.zip_cons_cons, List.foldl_cons]
            exact ih hp.2 ha.2 _ _ (set_congr2 hm hp.1 ha.1)
  exact this [] [] .nil

theorem substTerm_congr2 {m m' : Mapping} (hm : MapEq m m') {a b : Term} (h : a.norm = b.norm) :
    (substTerm m a).norm = (substTerm m' b).norm := by
  cases a with
  | const n t => cases b <;> simp [Term.norm] at h; simp [substTerm, Term.norm, h]
  | var v =>
    cases b with
    | const => simp [Term.norm] at h
    | var w =>
      have hg := get_congr2 hm h
      simp only [substTerm]
      cases h1 : m.get (.var v) <;> cases h2 : m'.get (.var w) <;> simp [h1, h2] at hg
      · exact h
      · exact hg

theorem substTerms_congr2 {m m' : Mapping} (hm : MapEq m m') {a b : List Term} (h : a.map Term.norm = b.map Term.norm) :
    (a.map (substTerm m)).map Term.norm = (b.map (substTerm m')).map Term.norm := by
  induction a generalizing b with
  | nil => cases b <;> simp_all
  | cons x l ih =>
    cases b with
    | nil => simp at h
    | cons y r =>
      simp only [List.map_cons, List.cons.injEq] at h ⊢
      exact ⟨substTerm_congr2 hm h.1, ih h.2⟩

/-- Equal formulas have equal instances under equal mappings (when both return). -/
theorem inst_congr2 {m m' : Mapping} (hm : MapEq m m') {a b a' b' : Expr} (h : a.norm = b.norm) (ha : a.inst m = .ok a')
    (hb : b.inst m' = .ok b') : a'.norm = b'.norm := by
  have hl : ∀ as bs as' bs' : List Expr,
      (∀ a ∈ as, ∀ b a' b' : Expr, a.norm = b.norm → a.inst m = .ok a' → b.inst m' = .ok b' → a'.norm = b'.norm) →
      Expr.norms as = Expr.norms bs → List.Forall₂ (fun a b => a.inst m = .ok b) as as' →
      List.Forall₂ (fun a b => a.inst m' = .ok b) bs bs' → Expr.norms as' = Expr.norms bs' := by
    intro as
    induction as with
    | nil =>
      intro bs as' bs' _ h h1 h2
      cases bs with
      | nil => cases h1; cases h2; rfl
      | cons => simp [Expr.norms] at h
    | cons a as ihl =>
      intro bs as' bs' ih h h1 h2
      cases bs with
      | nil => simp [Expr.norms] at h
      | cons b bs =>
        simp [Expr.norms] at h
        cases h1 with
        | cons e1 h1 =>
          cases h2 with
          | cons e2 h2 =>
            simp only [Expr.norms]
            rw [ih a (by simp) b _ _ h.1 e1 e2,
              ihl bs _ _ (fun x hx => ih x (List.mem_cons_of_mem _ hx)) h.2 h1 h2]
  induction a using Expr.ind generalizing b a' b' with
  | hpred p =>
    cases b <;> simp [Expr.norm] at h
    obtain ⟨_, _, rfl⟩ := inst_pred_ok.mp ha
    obtain ⟨_, _, rfl⟩ := inst_pred_ok.mp hb
    simp only [Expr.norm, h.1, substTerms_congr2 hm h.2]
  | heq l r =>
    cases b <;> simp [Expr.norm] at h
    obtain ⟨_, rfl⟩ := inst_eq_ok.mp ha
    obtain ⟨_, rfl⟩ := inst_eq_ok.mp hb
    simp only [Expr.norm, substTerm_congr2 hm h.1, substTerm_congr2 hm h.2]
  | hnfun f =>
    cases b <;> simp [Expr.norm] at h
    obtain ⟨_, rfl⟩ := inst_nfun_ok.mp ha
    obtain ⟨_, rfl⟩ := inst_nfun_ok.mp hb
    simp only [Expr.norm, h.1, substTerms_congr2 hm h.2]
  | hnum n =>
    cases b <;> simp [Expr.norm] at h
    have e1 := inst_num_ok.mp ha
    have e2 := inst_num_ok.mp hb
    subst e1; subst e2
    simp [Expr.norm, h]
  | hbfun o as ih =>
    cases b <;> simp [Expr.norm] at h
    obtain ⟨rfl, h⟩ := h
    obtain ⟨as', h1, rfl⟩ := inst_bfun_ok.mp ha
    obtain ⟨bs', h2, rfl⟩ := inst_bfun_ok.mp hb
    exact construct_congr (hl as _ as' bs' (fun a haa b a' b' e1 e2 e3 => ih a haa e1 e2 e3) h h1 h2)
  | hbin o as ih =>
    cases b <;> simp [Expr.norm] at h
    obtain ⟨rfl, h⟩ := h
    obtain ⟨as', h1, rfl⟩ := inst_bin_ok.mp ha
    obtain ⟨bs', h2, rfl⟩ := inst_bin_ok.mp hb
    exact construct_congr (hl as _ as' bs' (fun a haa b a' b' e1 e2 e3 => ih a haa e1 e2 e3) h h1 h2)
  | hnot a ih =>
    cases b <;> simp [Expr.norm] at h
    obtain ⟨_, h1, rfl⟩ := inst_not_ok.mp ha
    obtain ⟨_, h2, rfl⟩ := inst_not_ok.mp hb
    simp only [Expr.norm, ih h h1 h2]
  | hquant q vs c ih =>
    cases b <;> simp [Expr.norm] at h
    obtain ⟨rfl, hv, h⟩ := h
    obtain ⟨_, h1, rfl⟩ := inst_quant_ok.mp ha
    obtain ⟨_, h2, rfl⟩ := inst_quant_ok.mp hb
    simp only [mkQuant, Expr.norm, varsNorm_dedup, ih h h1 h2, hv]
  | hwhen c e _ _ => rw [inst_when] at ha; simp at ha
  | hfall vs e _ => rw [inst_fall] at ha; simp at ha

/-- Equal actions with equal arguments have equal instances (when both return). -/
theorem actionInst_congr2 {a b g g' : Action} {as bs : List Term} (h : a.norm = b.norm)
    (ha : as.map Term.norm = bs.map Term.norm) (hg : a.inst as = .ok g) (hg' : b.inst bs = .ok g') : g.norm = g'.norm := by
  simp only [Action.norm, Prod.mk.injEq] at h
  obtain ⟨hn, hp, hpre, heff⟩ := h
  have hm := ofZip_congr2 hp ha
  have hopt : ∀ {o o' r r' : Option Expr}, o.map Expr.norm = o'.map Expr.norm →
      instOpt (Mapping.ofZip a.params as) o = .ok r → instOpt (Mapping.ofZip b.params bs) o' = .ok r' →
      r.map Expr.norm = r'.map Expr.norm := by
    intro o o' r r' ho h1 h2
    cases o <;> cases o' <;> simp at ho
    · simp [instOpt] at h1 h2; subst h1; subst h2; rfl
    · simp only [instOpt, bind_ok_iff, pure_ok, Except.ok.injEq] at h1 h2
      obtain ⟨x, hx, rfl⟩ := h1
      obtain ⟨y, hy, rfl⟩ := h2
      simp [inst_congr2 hm ho hx hy]
  unfold Action.inst at hg hg'
  split at hg
  · simp at hg
  split at hg'
  · simp at hg'
  simp only [bind_ok_iff, mkAction, pure_ok, Except.ok.injEq] at hg hg'
  obtain ⟨p1, hp1, e1, he1, n1, hn1, rfl⟩ := hg
  obtain ⟨p2, hp2, e2, he2, n2, hn2, rfl⟩ := hg'
  rw [hn, hn2] at hn1
  simp only [Except.ok.injEq] at hn1
  simp only [Action.norm, Prod.mk.injEq]
  exact ⟨hn1.symm, ha, hopt hpre hp1 hp2, hopt heff he1 he2⟩

/-- Equal sets of actions, of which only equal ones share a name, give equal actions for each name. -/
theorem lastNamed_congr2 {as bs : List Action} (h : setEqBy Action.pyEq as bs = true)
    (h1 : ∀ a ∈ as, ∀ b ∈ as, a.name = b.name → a.pyEq b = true) (n : Str) :
    (lastNamed n as).map Action.norm = (lastNamed n bs).map Action.norm := by
  simp only [setEqBy, Bool.and_eq_true, List.all_eq_true, memBy_iff] at h
  have hname : ∀ {a b : Action}, a.pyEq b = true → a.name = b.name := by
    intro a b h; rw [Action.pyEq_iff] at h; simp only [Action.norm, Prod.mk.injEq] at h; exact h.1
  cases ha : lastNamed n as with
  | none =>
    cases hb : lastNamed n bs with
    | none => rfl
    | some b =>
      obtain ⟨hb1, hb2⟩ := lastNamed_mem hb
      obtain ⟨a, ha1, e⟩ := h.2 b hb1
      obtain ⟨x, hx⟩ := lastNamed_isSome (n := n) (as := as) (List.mem_map.2 ⟨a, ha1, (hname e).symm.trans hb2⟩)
      rw [ha] at hx; simp at hx
  | some a =>
    obtain ⟨ha1, ha2⟩ := lastNamed_mem ha
    obtain ⟨b0, hb0, e0⟩ := h.1 a ha1
    obtain ⟨b, hb⟩ := lastNamed_isSome (n := n) (as := bs) (List.mem_map.2 ⟨b0, hb0, (hname e0).symm.trans ha2⟩)
    obtain ⟨hb1, hb2⟩ := lastNamed_mem hb
    obtain ⟨a', ha1', e⟩ := h.2 b hb1
    have e' := h1 a ha1 a' ha1' (by rw [ha2, ← hname e, hb2])
    rw [hb]
    simp only [Option.map_some, Option.some.injEq]
    rw [Action.pyEq_iff] at e e'
    rw [e', e]

theorem terms_mem_congr {x y : List Term} (h : setEqBy Term.pyEq x y = true) {t : Term} :
    (∃ o ∈ x, t.pyEq o = true) ↔ ∃ o ∈ y, t.pyEq o = true := by
  simp only [setEqBy, Bool.and_eq_true, List.all_eq_true, memBy_iff] at h
  constructor
  · rintro ⟨o, ho, e⟩
    obtain ⟨o', ho', e'⟩ := h.1 o ho
    exact ⟨o', ho', eqv_term.trans e e'⟩
  · rintro ⟨o, ho, e⟩
    obtain ⟨o', ho', e'⟩ := h.2 o ho
    exact ⟨o', ho', eqv_term.trans e e'⟩

/-- The facts of equal problems describe the same states. -/
theorem startsIn_congr {D : Type} {ρ : Str → D} {I : Interp D} {i i' : List Expr} (h : setEqBy Expr.pyEq i i' = true)
    (hs : StartsIn ρ i I) : StartsIn ρ i' I := by
  simp only [setEqBy, Bool.and_eq_true, List.all_eq_true, memBy_iff] at h
  obtain ⟨h1, h2⟩ := h
  have hpred : ∀ {p : Pred} {e : Expr}, (Expr.pred p).norm = e.norm → ∃ ts, e = .pred ⟨p.name, ts⟩ ∧
      p.terms.map Term.norm = ts.map Term.norm := by
    intro p e he
    cases e <;> simp [Expr.norm] at he
    rename_i q
    exact ⟨q.terms, by rw [he.1], he.2⟩
  have hval : ∀ {f : NFun} {v : Num} {e : Expr}, (Expr.bfun .eq [.nfun f, .num v]).norm = e.norm →
      ∃ ts w, e = .bfun .eq [.nfun ⟨f.name, ts⟩, .num w] ∧ f.terms.map Term.norm = ts.map Term.norm ∧ v.key = w.key := by
    intro f v e he
    cases e <;> simp [Expr.norm] at he
    rename_i o as
    obtain ⟨rfl, he⟩ := he
    match as with
    | [] => simp [Expr.norms] at he
    | [_] => simp [Expr.norms] at he
    | _ :: _ :: _ :: _ => simp [Expr.norms] at he
    | [a, b] =>
      simp only [Expr.norms, List.cons.injEq, and_true] at he
      obtain ⟨ha, hb⟩ := he
      cases a <;> simp [Expr.norm] at ha
      cases b <;> simp [Expr.norm] at hb
      rename_i g w
      exact ⟨g.terms, w, by rw [ha.1], ha.2, hb⟩
  refine ⟨fun n ds => ?_, fun p hp => ?_, fun f v hf => ?_, fun n ds hn => ?_⟩
  · rw [hs.pred n ds]
    constructor
    · rintro ⟨ts, hm, rfl⟩
      obtain ⟨e, he, heq⟩ := h1 _ hm
      obtain ⟨ts', rfl, ht⟩ := hpred ((Expr.pyEq_iff _ _).1 heq)
      exact ⟨ts', he, denote_terms I ht ρ⟩
    · rintro ⟨ts, hm, rfl⟩
      obtain ⟨e, he, heq⟩ := h2 _ hm
      obtain ⟨ts', rfl, ht⟩ := hpred ((Expr.pyEq_iff _ _).1 heq)
      exact ⟨ts', he, denote_terms I ht ρ⟩
  · obtain ⟨e, he, heq⟩ := h2 _ hp
    have heq := (Expr.pyEq_iff _ _).1 heq
    cases e <;> simp [Expr.norm] at heq
    obtain ⟨ts', rfl, ht⟩ := hpred heq
    have := hs.not _ he
    rwa [denote_terms I ht ρ]
  · obtain ⟨e, he, heq⟩ := h2 _ hf
    obtain ⟨ts', w, rfl, ht, hv⟩ := hval ((Expr.pyEq_iff _ _).1 heq)
    have := hs.value _ _ he
    rw [denote_terms I ht ρ, numVal_key hv]
    exact this
  · obtain ⟨ts, v, hm, rfl⟩ := hs.other n ds hn
    obtain ⟨e, he, heq⟩ := h1 _ hm
    obtain ⟨ts', w, rfl, ht, hv⟩ := hval ((Expr.pyEq_iff _ _).1 heq)
    exact ⟨ts', w, he, denote_terms I ht ρ⟩

theorem nextCongr {D : Type} {C C' : Change D → Prop} {I J : Interp D} (h : ∀ c, C c ↔ C' c) (hn : Next C I J) : Next C' I J := by
  have : C = C' := funext fun c => propext (h c)
  rw [← this]; exact hn

theorem acts_congr {D : Type} {ρ : Str → D} {I J : Interp D} {g g' : Action} (h : g.norm = g'.norm)
    (ha : Acts ρ g I J) : Acts ρ g' I J := by
  simp only [Action.norm, Prod.mk.injEq] at h
  obtain ⟨_, _, hp, he⟩ := h
  obtain ⟨h1, h2⟩ := ha
  refine ⟨fun e' h' => ?_, nextCongr (fun c => ?_) h2⟩
  · rw [h'] at hp
    cases hg : g.pre with
    | none => rw [hg] at hp; simp at hp
    | some e =>
      rw [hg] at hp
      simp only [Option.map_some, Option.some.injEq] at hp
      exact (holds_congr_norm I hp ρ).1 (h1 e hg)
  · cases hg : g.eff with
    | none => rw [hg] at he; cases hg' : g'.eff <;> rw [hg'] at he <;> simp at he ⊢
    | some e =>
      rw [hg] at he
      cases hg' : g'.eff with
      | none => rw [hg'] at he; simp at he
      | some e' =>
        rw [hg'] at he
        simp only [Option.map_some, Option.some.injEq] at he
        simp [makes_congr I c he ρ]

theorem runs_congr {D : Type} {ρ : Str → D} {I J : Interp D} {gs gs' : List Action}
    (h : List.Forall₂ (fun g g' => g.norm = g'.norm) gs gs') (hr : Runs ρ gs I J) : Runs ρ gs' I J := by
  induction h generalizing I with
  | nil => exact hr
  | cons h _ ih =>
    cases hr with
    | cons h1 h2 => exact .cons (acts_congr h h1) (ih h2)

end Pddl
