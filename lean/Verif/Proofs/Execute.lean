/-
Executing the objects read from texts is executing the texts.
-/
import Verif.Spec.DerivedSem
import Verif.Props.GroundOperands
import Verif.Props.WrittenProblem

namespace Pddl
open Spec Spec.Grammar

/-! ### The names of written parameters -/

/-- The names after question marks. -/
def varNames : List Tree → List Str
  | .atom .qmark :: .atom (.name n) :: r => n :: varNames r
  | _ :: r => varNames r
  | [] => []

theorem varNames_vars (ns : List Str) (r : List Tree) : varNames (ns.flatMap varTrees ++ r) = ns ++ varNames r := by
  induction ns with
  | nil => rfl
  | cons n ns ih => simp only [List.flatMap_cons, varTrees, List.cons_append, List.nil_append, varNames]; rw [← ih]

theorem Spec.VarsText.names {ts : List Tree} {l : TypedList} (h : VarsText ts l) : l.vars.map Prod.fst = varNames ts := by
  induction h with
  | rest ns =>
    have : (⟨[], ns.map .str⟩ : TypedList).vars = ns.map (fun n => (n, [])) := by
      simp only [TypedList.vars, TypedList.assigned, List.flatMap_nil, List.nil_append, List.map_map]
      induction ns with
      | nil => rfl
      | cons n ns ih => simp only [List.map_cons, List.filterMap_cons, Function.comp_apply, ih]
    have h2 := varNames_vars ns []
    rw [List.append_nil] at h2
    rw [this, List.map_map, h2]
    simp [varNames, Function.comp_def]
  | @group n ns t types ts l ht _ ih =>
    have : (⟨((n :: ns).map .str, .list types) :: l.groups, l.rest⟩ : TypedList).vars =
        (n :: ns).map (fun n => (n, types)) ++ l.vars := by
      simp only [TypedList.vars, TypedList.assigned, List.flatMap_cons, List.append_assoc, List.filterMap_append]
      congr 1
      generalize n :: ns = ns
      induction ns with
      | nil => rfl
      | cons n ns ih => simp only [List.map_cons, List.filterMap_cons]; rw [ih]; rfl
    rw [this, varNames_vars, List.map_append, List.map_map, ih]
    have e : varNames (.atom .minus :: t :: ts) = varNames ts := by
      cases ht <;> simp [varNames]
    rw [e]
    simp [Function.comp_def]

theorem sublist_members {l l' : List Str} (hs : l.Sublist l') (hn : l'.Nodup) (h : ∀ x, x ∈ l ↔ x ∈ l') : l = l' := by
  refine hs.eq_of_length_le ?_
  exact (List.subperm_of_subset hn (fun x hx => (h x).2 hx)).length_le

/-! ### Steps -/

theorem Spec.Next.congr {D : Type} {C C' : Change D → Prop} {I J : Interp D} (h : ∀ c, C c ↔ C' c) (hn : Next C I J) : Next C' I J := by
  have : C = C' := funext fun c => propext (h c)
  rw [← this]; exact hn

theorem argumentOf_consts (params : List Term) (ns : List Str) :
    argumentOf params (ns.map (.const · none)) = nameFor (params.map Term.name) ns := by
  funext x
  unfold argumentOf nameFor
  induction params generalizing ns with
  | nil => rfl
  | cons p ps ih =>
    cases ns with
    | nil => rfl
    | cons n ns =>
      simp only [List.map_cons, List.zip_cons_cons, List.find?_cons]
      by_cases h : p.name = x
      · simp only [h, decide_true]
        rfl
      · simp only [h, decide_false]
        exact ih ns

theorem actsAt_iff {F : FloatOf} {σ : PState} {text : Str} {d : Domain} {σ' : PState} {a g : Action} {ts : List Tree} {n : Str} {ns : List Str}
    (hσ : ParserState F σ) (h : parseDomain F σ text = .ok (d, σ')) (hts : readText text = .ok [.node ts]) (hp : PlainActions ts)
    {us : List Tree} (hk : OperandsStay F ts us) (hu : applied n ns ∈ us) (hvalid : ∀ m ∈ ns, ValidName m)
    (ha : a ∈ d.actions) (hn : a.name = n) (hg : a.inst (ns.map (.const · none)) = .ok g)
    {D : Type} {lit : Str → Option Rat} (hlit : LitOk lit F) (ρ : Str → D) (I I' J : Interp D) :
    ActsAt ρ g I' I J ↔ TextActsAt lit ts ρ (applied n ns) I' I J := by
  obtain ⟨ts', n', ps, pre, eff, l, hr, hin, hv, hnd, hsub, hmem, hlen, rfl, _, _, gp, ge, hgp, hge, hall⟩ :=
    Props.C74_operands hσ h ha (by
      intro t ht
      obtain ⟨m, hm, rfl⟩ := List.mem_map.1 ht
      exact ⟨m, none, rfl, hvalid m hm⟩) hg
  rw [hts] at hr
  injection hr with hr
  injection hr with hr
  injection hr with hr
  subst hr
  subst hn
  have hpar := sublist_members hsub (hp.params _ _ _ _ l hin hv) hmem
  have hne := hp.pre _ _ _ _ hin
  obtain ⟨hkp, hke⟩ := hk _ _ _ _ _ l hu hin hv
  rw [← hpar, ← argumentOf_consts] at hkp hke
  have hb := hp.bound _ _ _ _ l hin hv
  rw [← hpar] at hb
  have heff := And.intro (hp.eff _ _ _ _ hin) hke
  have hlen' : ns.length = l.vars.length := by
    have h1 := congrArg List.length hpar
    simp only [List.length_map] at h1 hlen
    omega
  have hzip : ∀ (ρ' : Str → D), Binds I' a.params (ns.map (.const · none)) ρ ρ' ↔
      (∀ q ∈ (l.vars.map Prod.fst).zip ns, ρ' q.1 = I'.const q.2) ∧ ∀ m, m ∉ l.vars.map Prod.fst → ρ' m = ρ m := by
    intro ρ'
    rw [← hpar]
    constructor
    · intro hb
      refine ⟨?_, fun m hm => hb.other m (fun t ht e => hm (List.mem_map.2 ⟨t, ht, e⟩))⟩
      intro q hq
      rw [List.zip_map_left] at hq
      obtain ⟨⟨t, m⟩, hq', rfl⟩ := List.mem_map.1 hq
      refine hb.param (t, .const m none) ?_
      rw [List.zip_map_right]
      exact List.mem_map.2 ⟨(t, m), hq', rfl⟩
    · rintro ⟨h1, h2⟩
      refine ⟨?_, fun m hm => h2 m (fun hx => by obtain ⟨t, ht, e⟩ := List.mem_map.1 hx; exact hm t ht e)⟩
      intro q hq
      rw [List.zip_map_right] at hq
      obtain ⟨⟨t, m⟩, hq', rfl⟩ := List.mem_map.1 hq
      refine h1 (t.name, m) ?_
      rw [List.zip_map_left]
      exact List.mem_map.2 ⟨(t, m), hq', rfl⟩
  constructor
  · rintro ⟨h1, h2⟩
    obtain ⟨ρ', hb'⟩ := Props.C74_binds I' a.params (ns.map (.const · none)) hnd ρ
    obtain ⟨k1, k2⟩ := hall D I' lit ρ ρ' hlit hb'
    obtain ⟨z1, z2⟩ := (hzip ρ').1 hb'
    refine ⟨_, ns, ps, pre, eff, l, ρ', rfl, hin, hv, hlen', z1, z2, (k1 ⟨hne, hb, hkp⟩).1 (h1 gp hgp), h2.congr ?_⟩
    intro c
    rw [← k2 heff c, hge]
    simp
  · rintro ⟨n', ns', ps', pre', eff', l', ρ', e, hin', hv', _, z1, z2, h1, h2⟩
    simp only [applied, Tree.node.injEq, List.cons.injEq, Tree.atom.injEq, Tok.name.injEq] at e
    obtain ⟨e1, e2⟩ := e
    subst e1
    have e2 : ns = ns' := by
      have hi : Function.Injective (fun n : Str => Tree.atom (.name n)) := by
        intro x y hxy; injection hxy with hxy; injection hxy
      exact List.map_injective_iff.2 hi e2
    subst e2
    obtain ⟨rfl, rfl, rfl⟩ := hp.names _ _ _ _ _ _ _ hin hin'
    rw [hv'.names, ← hv.names] at z1 z2
    obtain ⟨k1, k2⟩ := hall D I' lit ρ ρ' hlit ((hzip ρ').2 ⟨z1, z2⟩)
    refine ⟨?_, h2.congr ?_⟩
    · intro x hx
      rw [hgp] at hx
      injection hx with hx
      subst hx
      exact (k1 ⟨hne, hb, hkp⟩).2 h1
    · intro c
      rw [← k2 heff c, hge]
      simp

theorem acts_iff {F : FloatOf} {σ : PState} {text : Str} {d : Domain} {σ' : PState} {a g : Action} {ts : List Tree} {n : Str} {ns : List Str}
    (hσ : ParserState F σ) (h : parseDomain F σ text = .ok (d, σ')) (hts : readText text = .ok [.node ts]) (hp : PlainActions ts)
    {us : List Tree} (hk : OperandsStay F ts us) (hu : applied n ns ∈ us) (hvalid : ∀ m ∈ ns, ValidName m)
    (ha : a ∈ d.actions) (hn : a.name = n) (hg : a.inst (ns.map (.const · none)) = .ok g)
    {D : Type} {lit : Str → Option Rat} (hlit : LitOk lit F) (ρ : Str → D) (I J : Interp D) :
    Acts ρ g I J ↔ TextActs lit ts ρ (applied n ns) I J :=
  actsAt_iff hσ h hts hp hk hu hvalid ha hn hg hlit ρ I I J

theorem runs_iff {F : FloatOf} {σ : PState} {text : Str} {d : Domain} {σ' : PState} {ts : List Tree} {plan : Plan} {us : List Tree}
    {gs : List Action} (hσ : ParserState F σ) (h : parseDomain F σ text = .ok (d, σ')) (hts : readText text = .ok [.node ts])
    (hp : PlainActions ts) (hk : OperandsStay F ts us) (hw : List.Forall₂ StepWritten us plan.steps)
    (hvalid : ∀ s ∈ plan.steps, ∀ c ∈ s.2, ValidName c.name) (hg : plan.inst d = .ok gs)
    {D : Type} {lit : Str → Option Rat} (hlit : LitOk lit F) (ρ : Str → D) (I J : Interp D) :
    Runs ρ gs I J ↔ TextRuns lit ts ρ us I J := by
  have h1 := instSteps_ok.mp hg
  clear hg
  revert h1 hw hvalid
  generalize plan.steps = l
  intro hw hvalid h1
  induction hw generalizing gs I with
  | nil =>
    cases h1
    constructor <;> (intro h; cases h; exact .nil)
  | @cons u s us l hu _ ih =>
    cases h1 with
    | @cons _ g _ gs h1 h2 =>
      obtain ⟨a, ha, hi⟩ := h1
      obtain ⟨hm, hn⟩ := lastNamed_mem ha
      obtain ⟨ns, rfl, hs⟩ := hu
      rw [hs] at hi
      have key := fun J => acts_iff hσ h hts hp hk (n := s.1) (ns := ns) List.mem_cons_self (fun m hm => hvalid s List.mem_cons_self (.const m none) (by
        rw [hs]; exact List.mem_map.2 ⟨m, hm, rfl⟩)) hm hn hi hlit ρ I J
      have hk' : OperandsStay F ts us := fun n ns ps pre eff l hu => hk n ns ps pre eff l (List.mem_cons_of_mem _ hu)
      have ih := fun J => ih (gs := gs) hk' J (fun s hs => hvalid s (List.mem_cons_of_mem _ hs))
      constructor
      · intro h
        cases h with
        | cons k1 k2 => exact .cons ((key _).1 k1) ((ih _ h2).1 k2)
      · intro h
        cases h with
        | cons k1 k2 => exact .cons ((key _).2 k1) ((ih _ h2).2 k2)

/-! ### The start -/

theorem consts_denote {D : Type} {I : Interp D} {ρ : Str → D} {P : Str → Option Str → Prop} {ns : List Str} {ts : List Term}
    (h : List.Forall₂ (fun n u => ∃ x, u = .const n x ∧ P n x) ns ts) : ts.map (denote I ρ) = ns.map I.const := by
  induction h with
  | nil => rfl
  | cons h _ ih =>
    obtain ⟨x, rfl, _⟩ := h
    simp only [List.map_cons, ih, denote]

theorem applied_inj {n n' : Str} {ns ns' : List Str} (e : Tree.node (word n :: ns.map word) = applied n' ns') : n = n' ∧ ns = ns' := by
  simp only [applied, word, Tree.node.injEq, List.cons.injEq, Tree.atom.injEq, Tok.name.injEq] at e
  refine ⟨e.1, ?_⟩
  have hi : Function.Injective (fun n : Str => Tree.atom (.name n)) := by
    intro x y hxy; injection hxy with hxy; injection hxy
  exact List.map_injective_iff.2 hi e.2

theorem names_ne_node {ns : List Str} {l : List Tree} (h : ns.map (fun n => Tree.atom (.name n)) = [.node l]) : False := by
  cases ns <;> simp at h

theorem Spec.FactWritten.denotes {T : Prop} {objs : List Term} {t : Tree} {p : Pred} (h : FactWritten T objs t p)
    {D : Type} (I : Interp D) (ρ : Str → D) : ∃ ns, t = applied p.name ns ∧ p.terms.map (denote I ρ) = ns.map I.const := by
  obtain ⟨ns, rfl, h2⟩ := h
  exact ⟨ns, rfl, consts_denote h2⟩

theorem Spec.FluentWritten.denotes {t : Tree} {f : NFun} (h : FluentWritten t f)
    {D : Type} (I : Interp D) (ρ : Str → D) : ∃ ns, WrittenFluent t f.name ns ∧ f.terms.map (denote I ρ) = ns.map I.const := by
  obtain ⟨ns, h1, h2⟩ := h
  exact ⟨ns, h1, consts_denote (P := fun _ _ => True) (h2.imp fun _ _ ⟨x, h⟩ => ⟨x, h, trivial⟩)⟩

theorem writtenFluent_unique {t : Tree} {f f' : Str} {ns ns' : List Str} (h : WrittenFluent t f ns) (h' : WrittenFluent t f' ns') :
    f = f' ∧ ns = ns' := by
  rcases h with rfl | ⟨rfl, rfl⟩
  · rcases h' with h' | ⟨h', _⟩
    · exact applied_inj h'
    · simp [applied, word] at h'
  · rcases h' with h' | ⟨h', rfl⟩
    · simp [applied, word] at h'
    · simp only [word, Tree.atom.injEq, Tok.name.injEq] at h'
      exact ⟨h', rfl⟩

theorem starts_iff {F : FloatOf} {T : Prop} {objs : List Term} {init : List Expr} {ts : List Tree}
    (h1 : ∀ e ∈ init, ∃ t ∈ ts, InitWritten F T objs t e) (h2 : ∀ t ∈ ts, ∃ e ∈ init, InitWritten F T objs t e)
    {D : Type} {lit : Str → Option Rat} (hlit : LitOk lit F) (ρ : Str → D) (I : Interp D) :
    StartsIn ρ init I ↔ TextStarts lit ts I := by
  have fact : ∀ {n ns}, applied n ns ∈ ts → ∃ us, .pred ⟨n, us⟩ ∈ init ∧ us.map (denote I ρ) = ns.map I.const := by
    intro n ns ht
    obtain ⟨e, he, hw⟩ := h2 _ ht
    generalize hg : applied n ns = t at hw
    cases hw with
    | @fact _ p hf =>
      obtain ⟨ns', e1, e2⟩ := hf.denotes I ρ
      rw [← hg] at e1
      obtain ⟨e3, rfl⟩ := applied_inj e1
      exact ⟨p.terms, by rw [e3]; exact he, e2⟩
    | not hf =>
      obtain ⟨ns', rfl, _⟩ := hf.denotes I ρ
      simp only [applied, word, Tree.node.injEq, List.cons.injEq] at hg
      exact (names_ne_node hg.2).elim
    | value _ _ => simp [applied] at hg
  have fact' : ∀ {n us}, .pred ⟨n, us⟩ ∈ init → ∃ ns, applied n ns ∈ ts ∧ us.map (denote I ρ) = ns.map I.const := by
    intro n us he
    obtain ⟨t, ht, hw⟩ := h1 _ he
    cases hw with
    | fact hf =>
      obtain ⟨ns', e1, e2⟩ := hf.denotes I ρ
      exact ⟨ns', e1 ▸ ht, e2⟩
  have val : ∀ {t s f ns}, .node [.atom .eq, t, .atom (.num s)] ∈ ts → WrittenFluent t f ns →
      ∃ us v, .bfun .eq [.nfun ⟨f, us⟩, .num v] ∈ init ∧ us.map (denote I ρ) = ns.map I.const ∧ numVal v = lit s := by
    intro t s f ns ht hf
    obtain ⟨e, he, hw⟩ := h2 _ ht
    generalize hg : Tree.node [.atom .eq, t, .atom (.num s)] = u at hw
    cases hw with
    | fact hf => obtain ⟨_, rfl, _⟩ := hf.denotes I ρ; simp [applied] at hg
    | not _ => simp [word] at hg
    | @value t' f' s' v hf' hv =>
      simp only [Tree.node.injEq, List.cons.injEq, Tree.atom.injEq, Tok.num.injEq, true_and, and_true] at hg
      obtain ⟨rfl, rfl⟩ := hg
      obtain ⟨ns', w, e⟩ := hf'.denotes I ρ
      obtain ⟨rfl, rfl⟩ := writtenFluent_unique w hf
      exact ⟨f'.terms, v, he, e, hv lit hlit⟩
  have val' : ∀ {f us v}, .bfun .eq [.nfun ⟨f, us⟩, .num v] ∈ init → ∃ t s ns, .node [.atom .eq, t, .atom (.num s)] ∈ ts ∧
      WrittenFluent t f ns ∧ us.map (denote I ρ) = ns.map I.const ∧ numVal v = lit s := by
    intro f us v he
    obtain ⟨t, ht, hw⟩ := h1 _ he
    cases hw with
    | @value t' f' s' v hf' hv =>
      obtain ⟨ns', w, e⟩ := hf'.denotes I ρ
      exact ⟨t', s', ns', ht, w, e, hv lit hlit⟩
  constructor
  · intro h
    refine ⟨?_, ?_, ?_, ?_⟩
    · intro n ds
      rw [h.pred]
      constructor
      · rintro ⟨us, he, rfl⟩
        obtain ⟨ns, ht, e⟩ := fact' he
        exact ⟨ns, ht, e⟩
      · rintro ⟨ns, ht, rfl⟩
        obtain ⟨us, he, e⟩ := fact ht
        exact ⟨us, he, e.symm⟩
    · intro n ns ht
      obtain ⟨e, he, hw⟩ := h2 _ ht
      generalize hg : Tree.node [word s%"not", applied n ns] = u at hw
      cases hw with
      | fact hf =>
        obtain ⟨_, rfl, _⟩ := hf.denotes I ρ
        simp only [applied, word, Tree.node.injEq, List.cons.injEq] at hg
        exact (names_ne_node hg.2.symm).elim
      | @not t' p hf =>
        simp only [Tree.node.injEq, List.cons.injEq, true_and, and_true] at hg
        subst hg
        obtain ⟨ns', e1, e2⟩ := hf.denotes I ρ
        obtain ⟨e3, rfl⟩ := applied_inj e1
        have := h.not p he
        rw [e2] at this
        rw [e3]; exact this
      | value _ _ => simp [word] at hg
    · intro t f ns s ht hf
      obtain ⟨us, v, he, e, hv⟩ := val ht hf
      rw [← e, ← hv]
      exact h.value _ _ he
    · intro n ds hn
      obtain ⟨us, v, he, rfl⟩ := h.other n ds hn
      obtain ⟨t, s, ns, ht, hf, e, _⟩ := val' he
      exact ⟨t, ns, s, ht, hf, e⟩
  · intro h
    refine ⟨?_, ?_, ?_, ?_⟩
    · intro n ds
      rw [h.pred]
      constructor
      · rintro ⟨ns, ht, rfl⟩
        obtain ⟨us, he, e⟩ := fact ht
        exact ⟨us, he, e.symm⟩
      · rintro ⟨us, he, rfl⟩
        obtain ⟨ns, ht, e⟩ := fact' he
        exact ⟨ns, ht, e⟩
    · intro p he
      obtain ⟨t, ht, hw⟩ := h1 _ he
      cases hw with
      | not hf =>
        obtain ⟨ns, rfl, e⟩ := hf.denotes I ρ
        rw [e]
        exact h.not _ _ ht
    · intro f v he
      obtain ⟨t, s, ns, ht, hf, e, hv⟩ := val' (f := f.name) (us := f.terms) he
      rw [e, hv]
      exact h.value _ _ _ _ ht hf
    · intro n ds hn
      obtain ⟨t, ns, s, ht, hf, rfl⟩ := h.other n ds hn
      obtain ⟨us, v, he, e, _⟩ := val ht hf
      exact ⟨us, v, he, e.symm⟩

end Pddl
