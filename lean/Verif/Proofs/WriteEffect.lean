/- Effects with names in place of variables. -/
import Verif.Proofs.WriteIn

namespace Pddl
open Spec

variable {r : Str → Option Str} {E : GEnv}

/-! ### Reading -/

theorem atomic_ground (hc : Covers r E) {a : List Tree} {e : Expr} (h : E.atomic a = .ok e) :
    ∃ e', E.ground.atomic (writeIns r a) = .ok e' := by
  match a, h with
  | .atom (.name n) :: args, h =>
    obtain ⟨ts, p, h1, h2, rfl⟩ := atomic_name_ok.1 h
    obtain ⟨ts', k1, _, k2⟩ := terms_ground hc h1
    rw [writeIns_cons (by simp), writeIn]
    exact ⟨_, atomic_name_ok.2 ⟨_, _, k1, mkPred_ok.2 ⟨(mkPred_ok.1 h2).1, untagged_consistent k2, rfl⟩, rfl⟩⟩
  | .atom .eq :: args, h =>
    obtain ⟨l, r', h1, hr, h2⟩ := atomic_eq_ok.1 h
    obtain ⟨ts', k1, k2, k3⟩ := terms_ground hc h1
    match ts', k2, k3, k1 with
    | [a, b], _, k3, k1 =>
      rw [writeIns_cons (by simp), writeIn]
      exact ⟨_, atomic_eq_ok.2 ⟨a, b, k1, hr, mkEq_ok.2 ⟨untagged_consistent k3, rfl⟩⟩⟩
  | [], h => simp [GEnv.atomic] at h
  | .node _ :: _, h => simp [GEnv.atomic] at h

theorem fHead_ground (hc : Covers r E) {t : Tree} {f : NFun} (h : E.fHead t = .ok f) : ∃ f', E.ground.fHead (writeIn r t) = .ok f' := by
  unfold GEnv.fHead at h
  split at h
  · exact ⟨_, by rw [writeIn]; exact h⟩
  · obtain ⟨ts, ht, h⟩ := bind_ok_iff.1 h
    obtain ⟨ts', k1, _, _⟩ := terms_ground hc ht
    rw [writeIn, writeIns_cons (by simp), writeIn]
    simp only [GEnv.fHead, bind_ok_iff]
    exact ⟨_, ts', k1, mkNFun_ok.2 ⟨(mkNFun_ok.1 h).1, rfl⟩⟩
  · cases h

theorem PRel.ground (hc : Covers r E) {t : Tree} {e : Expr} (h : PRel E t e) : ∃ e', PRel E.ground (writeIn r t) e' := by
  cases h with
  | @not a x ha =>
    obtain ⟨e', k⟩ := atomic_ground hc ha
    rw [writeIn, writeIns_map (by simp)]
    simp only [List.map_cons, List.map_nil, writeIn]
    exact ⟨_, .not k⟩
  | @assign w op hd x f y ho hf hx =>
    obtain ⟨f', k1⟩ := fHead_ground hc hf
    obtain ⟨e', k2⟩ := (fExp_iff.1 hx).ground hc
    rw [writeIn, writeIns_map (by simpa using ⟨(fHead_rel hf).notMark, (fExp_iff.1 hx).notMark⟩)]
    simp only [List.map_cons, List.map_nil, writeIn]
    exact ⟨_, .assign ho k1 (fExp_iff.2 k2)⟩
  | @atom w args x hw ho ha =>
    obtain ⟨e', k⟩ := atomic_ground hc ha
    rw [writeIns_cons (by simp), writeIn] at k
    rw [writeIn, writeIns_cons (by simp), writeIn]
    exact ⟨_, .atom hw ho k⟩
  | @eq args x ha =>
    obtain ⟨e', k⟩ := atomic_ground hc ha
    rw [writeIns_cons (by simp), writeIn] at k
    rw [writeIn, writeIns_cons (by simp), writeIn]
    exact ⟨_, .eq k⟩

/-! ### Effects that can be instantiated -/

mutual
/-- There is a `when` or a `forall` in the effect. -/
def Expr.effy : Expr → Prop
  | .bin .and as => Expr.effies as
  | .bin .oneof as => Expr.effies as
  | .when _ _ => True
  | .fall _ _ => True
  | _ => False
def Expr.effies : List Expr → Prop
  | [] => False
  | a :: as => a.effy ∨ Expr.effies as
end

theorem effies_iff {as : List Expr} : Expr.effies as ↔ ∃ a ∈ as, a.effy := by
  induction as with
  | nil => simp [Expr.effies]
  | cons a as ih => simp [Expr.effies, ih]

theorem effy_congr {a b : Expr} (h : a.norm = b.norm) : a.effy ↔ b.effy := by
  induction a using Expr.ind generalizing b with
  | hbin o as ih =>
    cases b with
    | bin o' bs =>
      simp [Expr.norm] at h
      obtain ⟨rfl, h⟩ := h
      have key : Expr.effies as ↔ Expr.effies bs := by
        induction as generalizing bs with
        | nil => cases bs <;> simp_all [Expr.norms]
        | cons a as ihl =>
          cases bs with
          | nil => simp [Expr.norms] at h
          | cons b bs =>
            simp only [Expr.norms, List.cons.injEq] at h
            simp only [Expr.effies]
            rw [ih a (by simp) h.1, ihl (fun x hx => ih x (List.mem_cons_of_mem _ hx)) _ h.2]
      cases o with
      | and => simp only [Expr.effy, key]
      | oneof => simp only [Expr.effy, key]
      | _ => simp [Expr.effy]
    | _ => simp [Expr.norm] at h
  | _ => cases b <;> simp [Expr.norm] at h <;> simp [Expr.effy]

theorem effy_dedup (l : List Expr) : (∃ a ∈ dedupBy Expr.pyEq l, a.effy) ↔ ∃ a ∈ l, a.effy := by
  constructor
  · rintro ⟨a, ha, h⟩; exact ⟨a, dedupBy_subset ha, h⟩
  · rintro ⟨a, ha, h⟩
    obtain ⟨y, hy, e⟩ := memBy_iff.mp (dedupBy_cover Expr.pyEq_refl ha)
    exact ⟨y, hy, (effy_congr ((Expr.pyEq_iff _ _).1 e)).1 h⟩

theorem effy_flatten (l : List Expr) : (∃ a ∈ flattenEs (.bop .and) l, a.effy) ↔ ∃ a ∈ l, a.effy := by
  have key : ∀ n, ∀ l : List Expr, Expr.sizes l = n → ((∃ a ∈ flattenEs (.bop .and) l, a.effy) ↔ ∃ a ∈ l, a.effy) := by
    intro n
    induction n using Nat.strongRecOn with
    | _ n ih =>
      intro l hn
      match l with
      | [] => simp [flattenEs]
      | e :: rest =>
        have hpos : 0 < e.size := by cases e <;> simp [Expr.size]
        simp only [Expr.sizes] at hn
        have hrest := ih (Expr.sizes rest) (by omega) rest rfl
        have happ : ∀ a b : List Expr, (∃ x ∈ a ++ b, x.effy) ↔ (∃ x ∈ a, x.effy) ∨ ∃ x ∈ b, x.effy := by
          intro a b; simp only [List.mem_append, or_and_right, exists_or]
        rw [flattenEs, happ, hrest]
        simp only [List.mem_cons, exists_eq_or_imp]
        cases ho : e.operandsIf (.bop .and) with
        | none => rw [flattenE_none ho]; simp
        | some bs =>
          rw [flattenE_some ho]
          have hs := Expr.size_operands ho
          rw [ih (Expr.sizes bs) (by omega) bs rfl]
          rw [ofCls_operandsIf] at ho
          subst ho
          simp [Expr.ofCls, Expr.effy, effies_iff]
  exact key _ l rfl

theorem effy_mkAnd (l : List Expr) : (mkAnd l).effy ↔ ∃ a ∈ l, a.effy := by
  have hs : (∃ a ∈ simplOperands (.bop .and) l, a.effy) ↔ ∃ a ∈ l, a.effy := by
    rw [← effy_dedup l]
    by_cases h : 2 ≤ (dedupBy Expr.pyEq l).length
    · rw [simplOperands_loop (by simpa [Cls.idempotent] using h)]
      simp only [Cls.idempotent, if_true]
      rw [effy_dedup, effy_flatten]
    · have : simplOperands (.bop .and) l = dedupBy Expr.pyEq l := by
        simp only [simplOperands, Cls.idempotent, if_true]
        match hd : dedupBy Expr.pyEq l, h with
        | [], _ => rfl
        | [x], _ => rfl
        | _ :: _ :: _, h => simp at h
      rw [this]
  rw [← hs]
  simp only [mkAnd, construct, Cls.isMeta, Cls.idempotent, if_true]
  split
  · next x hx => simp [hx]
  · next ops hx => simp [Expr.ofCls, Expr.effy, effies_iff]

theorem inst_not_effy {m : Mapping} {a b : Expr} (h : a.inst m = .ok b) : ¬ a.effy := by
  induction a using Expr.ind generalizing b with
  | hbin o as ih =>
    obtain ⟨bs, h2, rfl⟩ := inst_bin_ok.mp h
    have key : ¬ Expr.effies as := by
      rw [effies_iff]
      rintro ⟨a, ha, he⟩
      obtain ⟨b, hb, hab⟩ := forall2_mem' h2 a ha
      exact ih a ha hab he
    cases o with
    | and => simpa only [Expr.effy] using key
    | oneof => simpa only [Expr.effy] using key
    | _ => simp [Expr.effy]
  | hwhen c e => simp [Expr.inst] at h
  | hfall vs e => simp [Expr.inst] at h
  | _ => simp [Expr.effy]

theorem ERel.ground (hc : Covers r E) {top : Bool} {t : Tree} {e : Expr} (h : ERel E top t e) (hn : ¬ e.effy) :
    ∃ e', ERel E.ground top (writeIn r t) e' := by
  induction h with
  | @and args es hl hall ih =>
    have hq := zip_notMark (R := ERel E false) ERel.notMark hl hall
    rw [effy_mkAnd] at hn
    obtain ⟨es', h1, h3⟩ := list_ground hl (fun p hp => ih p hp (fun he => hn ⟨p.2, (List.of_mem_zip hp).2, he⟩))
    rw [writeIn, writeIns_cons (by simp), writeIn, writeIns_map hq]
    exact ⟨_, .and h1 h3⟩
  | fall => exact absurd trivial hn
  | when => exact absurd trivial hn
  | @oneof top args es hne hl hall hreq ih =>
    have hq := zip_notMark (R := ERel E true) ERel.notMark hl hall
    simp only [construct, Cls.isMeta, Expr.ofCls, Bool.false_eq_true, if_false, Expr.effy, effies_iff] at hn
    obtain ⟨es', h1, h3⟩ := list_ground hl (fun p hp => ih p hp (fun he => hn ⟨p.2, (List.of_mem_zip hp).2, he⟩))
    rw [writeIn, writeIns_cons (by simp), writeIn, writeIns_map hq]
    exact ⟨_, .oneof (by simpa using hne) h1 h3 hreq⟩
  | @lit top t e hw h =>
    obtain ⟨e', k⟩ := (pEffect_iff.1 h).ground hc
    refine ⟨e', .lit ?_ (pEffect_iff.2 k)⟩
    intro w args' hg
    obtain ⟨args, rfl⟩ := (pEffect_iff.1 h).head hg
    exact hw w args rfl

end Pddl
