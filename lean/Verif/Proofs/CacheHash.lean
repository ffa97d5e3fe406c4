/- Invariant of the memoised hashes. -/
import Verif.Spec.CacheHash

namespace Pddl.CacheHash
open Pddl.Spec

variable {L S : Type} {K : Classes L S} {σ : S}

theorem Obj.ind {P : Obj L → Prop} (h : ∀ i l ks, (∀ k ∈ ks, P k) → P (.mk i l ks)) : ∀ o, P o := by
  intro o
  refine Obj.rec (motive_1 := P) (motive_2 := fun ks => ∀ k ∈ ks, P k) h ?_ ?_ o
  · simp
  · intro a as ha has x hx
    rcases List.mem_cons.mp hx with rfl | hx
    · exact ha
    · exact has x hx

theorem Blob.ind {P : Blob L → Prop} (h : ∀ i l ks, (∀ k ∈ ks, P k) → P (.mk i l ks)) : ∀ o, P o := by
  intro o
  refine Blob.rec (motive_1 := P) (motive_2 := fun ks => ∀ k ∈ ks, P k) h ?_ ?_ o
  · simp
  · intro a as ha has x hx
    rcases List.mem_cons.mp hx with rfl | hx
    · exact ha
    · exact has x hx

/-- `x` is `o` or one of its parts, parts of parts, ... -/
inductive Sub : Obj L → Obj L → Prop
  | refl (o) : Sub o o
  | kid {x k i l ks} : k ∈ ks → Sub x k → Sub x (.mk i l ks)

/-- Every memoised hash of a part of an object in `live` is right. -/
def CacheOk (K : Classes L S) (σ : S) (live : Obj L → Prop) (c : Cache) : Prop :=
  ∀ x, live x → ∀ h, c x.id = some h → h = freshHash K σ x

/-- A set of objects closed under parts where the identity determines the object. -/
structure LiveOk (live : Obj L → Prop) : Prop where
  closed : ∀ i l ks, live (.mk i l ks) → ∀ k ∈ ks, live k
  inj : ∀ x y, live x → live y → x.id = y.id → x = y

theorem cacheOk_set {live : Obj L → Prop} (hl : LiveOk live) {c : Cache} (hc : CacheOk K σ live c)
    {o : Obj L} (ho : live o) : CacheOk K σ live (c.set o.id (freshHash K σ o)) := by
  intro x hx h hh
  unfold Cache.set at hh
  split at hh
  · next e => have := hl.inj x o hx ho e; subst this; simpa using hh.symm
  · exact hc x hx h hh

theorem cacheOk_pop {live : Obj L → Prop} {c : Cache} (hc : CacheOk K σ live c) (i : Nat) :
    CacheOk K σ live (c.pop i) := by
  intro x hx h hh
  unfold Cache.pop at hh
  split at hh
  · simp at hh
  · exact hc x hx h hh

theorem hashObj_ok {live : Obj L → Prop} (hl : LiveOk live) (o : Obj L) (ho : live o) :
    ∀ c, CacheOk K σ live c →
      (hashObj K σ c o).1 = freshHash K σ o ∧ CacheOk K σ live (hashObj K σ c o).2 := by
  induction o using Obj.ind with
  | h i l ks ih =>
    have hks : ∀ ks : List (Obj L), (∀ k ∈ ks, live k ∧ ∀ c, CacheOk K σ live c →
        (hashObj K σ c k).1 = freshHash K σ k ∧ CacheOk K σ live (hashObj K σ c k).2) →
        ∀ c, CacheOk K σ live c → (hashObjs K σ c ks).1 = freshHashes K σ ks ∧
          CacheOk K σ live (hashObjs K σ c ks).2 := by
      intro ks
      induction ks with
      | nil => intro _ c hc; simp [hashObjs, freshHashes, hc]
      | cons k ks ihk =>
        intro hk c hc
        have h1 := (hk k (by simp)).2 c hc
        have h2 := ihk (fun x hx => hk x (List.mem_cons_of_mem _ hx)) _ h1.2
        simp only [hashObjs, freshHashes]
        exact ⟨by rw [h1.1, h2.1], h2.2⟩
    intro c hc
    have hk := hks ks (fun k hk => ⟨hl.closed i l ks ho k hk, ih k hk (hl.closed i l ks ho k hk)⟩) c hc
    simp only [hashObj]
    split
    · split
      · next h hh => exact ⟨hc (.mk i l ks) ho h hh, hc⟩
      · have e : K.comb σ l (hashObjs K σ c ks).1 = freshHash K σ (.mk i l ks) := by
          rw [hk.1]; simp [freshHash]
        refine ⟨e, ?_⟩
        rw [e]
        exact cacheOk_set hl hk.2 (o := .mk i l ks) ho
    · exact ⟨by rw [hk.1]; simp [freshHash], hk.2⟩

theorem dumpObj_ok {live : Obj L → Prop} (o : Obj L) :
    ∀ c, CacheOk K σ live c → CacheOk K σ live (dumpObj c o).2 := by
  induction o using Obj.ind with
  | h i l ks ih =>
    have hks : ∀ ks : List (Obj L), (∀ k ∈ ks, ∀ c, CacheOk K σ live c →
        CacheOk K σ live (dumpObj c k).2) →
        ∀ c, CacheOk K σ live c → CacheOk K σ live (dumpObjs c ks).2 := by
      intro ks
      induction ks with
      | nil => intro _ c hc; simpa [dumpObjs] using hc
      | cons k ks ihk =>
        intro hk c hc
        simp only [dumpObjs]
        exact ihk (fun x hx => hk x (List.mem_cons_of_mem _ hx)) _ (hk k (by simp) c hc)
    intro c hc
    simp only [dumpObj]
    exact hks ks ih _ (cacheOk_pop hc i)

/-- Loading gives fresh identities in `[n, n')`, with no memoised hash. -/
def Fresh (n n' : Nat) (o : Obj L) : Prop := ∀ x, Sub x o → n ≤ x.id ∧ x.id < n'

theorem Fresh.mono {n n' m m' : Nat} {o : Obj L} (h : Fresh n n' o) (h1 : m ≤ n) (h2 : n' ≤ m') :
    Fresh m m' o := fun x hx => ⟨Nat.le_trans h1 (h x hx).1, Nat.lt_of_lt_of_le (h x hx).2 h2⟩

/-- Loaded objects: identities increasing and distinct. -/
structure Loaded (n n' : Nat) (c c' : Cache) (os : List (Obj L)) : Prop where
  le : n ≤ n'
  fresh : ∀ o ∈ os, Fresh n n' o
  inj : ∀ o ∈ os, ∀ o' ∈ os, ∀ x y, Sub x o → Sub y o' → x.id = y.id → x = y
  none : ∀ i, n ≤ i → i < n' → c' i = none
  keep : ∀ i, i < n ∨ n' ≤ i → c' i = c i

theorem loadBlobs_ok_of (bs : List (Blob L))
    (ih : ∀ b ∈ bs, ∀ n c, Loaded n (loadBlob n c b).2.1 c (loadBlob n c b).2.2 [(loadBlob n c b).1]) :
    ∀ n c, Loaded n (loadBlobs n c bs).2.1 c (loadBlobs n c bs).2.2 (loadBlobs n c bs).1 := by
  induction bs with
  | nil => intro n c; simp only [loadBlobs]; exact ⟨Nat.le_refl _, by simp, by simp, by omega, by simp⟩
  | cons b bs ihb =>
    intro n c
    have h1 := ih b (by simp) n c
    have h2 := ihb (fun x hx => ih x (List.mem_cons_of_mem _ hx)) (loadBlob n c b).2.1 (loadBlob n c b).2.2
    simp only [loadBlobs]
    generalize loadBlob n c b = r at *
    obtain ⟨o, n1, c1⟩ := r
    simp only at *
    generalize loadBlobs n1 c1 bs = rs at *
    obtain ⟨os, n2, c2⟩ := rs
    simp only at *
    refine ⟨Nat.le_trans h1.le h2.le, ?_, ?_, ?_, ?_⟩
    · intro x hx
      rcases List.mem_cons.mp hx with rfl | hx
      · exact (h1.fresh _ (by simp)).mono (Nat.le_refl _) h2.le
      · exact (h2.fresh _ hx).mono h1.le (Nat.le_refl _)
    · intro a ha b hb x y hx hy e
      rcases List.mem_cons.mp ha with rfl | ha' <;> rcases List.mem_cons.mp hb with rfl | hb'
      · exact h1.inj _ (by simp) _ (by simp) x y hx hy e
      · have := h1.fresh a (by simp) x hx; have := h2.fresh b hb' y hy; omega
      · have := h1.fresh b (by simp) y hy; have := h2.fresh a ha' x hx; omega
      · exact h2.inj _ ha' _ hb' x y hx hy e
    · intro i hi hi'
      by_cases h : i < n1
      · rw [h2.keep i (Or.inl h)]; exact h1.none i hi h
      · exact h2.none i (by omega) hi'
    · intro i hi
      have := h1.le; have := h2.le
      rw [h2.keep i (by omega), h1.keep i (by omega)]

theorem loadBlob_ok (b : Blob L) :
    ∀ n c, Loaded n (loadBlob n c b).2.1 c (loadBlob n c b).2.2 [(loadBlob n c b).1] := by
  induction b using Blob.ind with
  | h h l bs ih =>
    intro n c
    have h2 := loadBlobs_ok_of bs ih n c
    simp only [loadBlob]
    generalize loadBlobs n c bs = rs at *
    obtain ⟨os, n2, c2⟩ := rs
    simp only at *
    have hcache : ∀ i, c2.setState n2 h i = if i = n2 then none else c2 i := by
      intro i
      cases h <;> simp [Cache.setState, Cache.set, Cache.pop]
      split <;> simp_all
    have hsub : ∀ x, Sub x (Obj.mk n2 l os) → x = Obj.mk n2 l os ∨ ∃ o ∈ os, Sub x o := by
      intro x hx
      cases hx with
      | refl => exact Or.inl rfl
      | kid hk hx => exact Or.inr ⟨_, hk, hx⟩
    refine ⟨by have := h2.le; omega, ?_, ?_, ?_, ?_⟩
    · intro o ho x hx
      simp at ho; subst ho
      rcases hsub x hx with rfl | ⟨o, ho, hx⟩
      · simp [Obj.id, h2.le]
      · have := h2.fresh o ho x hx; omega
    · intro o ho o' ho' x y hx hy e
      simp at ho ho'; subst ho; subst ho'
      rcases hsub x hx with rfl | ⟨o, ho, hx⟩ <;> rcases hsub y hy with rfl | ⟨o', ho', hy⟩
      · rfl
      · have := h2.fresh o' ho' y hy; simp [Obj.id] at e this; omega
      · have := h2.fresh o ho x hx; simp [Obj.id] at e this; omega
      · exact h2.inj o ho o' ho' x y hx hy e
    · intro i hi hi'
      rw [hcache]
      split
      · rfl
      · exact h2.none i hi (by omega)
    · intro i hi
      have := h2.le
      rw [hcache, if_neg (by omega)]
      exact h2.keep i (by omega)

/-- Parts of the objects of a state. -/
def Live (s : State L S) (x : Obj L) : Prop := ∃ o ∈ s.objs, Sub x o

structure Inv (K : Classes L S) (s : State L S) : Prop where
  inj : ∀ x y, Live s x → Live s y → x.id = y.id → x = y
  lt : ∀ x, Live s x → x.id < s.nxt
  cache : CacheOk K s.seed (Live s) s.cache

theorem sub_trans {x y z : Obj L} (h : Sub x y) (h' : Sub y z) : Sub x z := by
  induction h' with
  | refl => exact h
  | kid hk _ ih => exact .kid hk ih

theorem Inv.liveOk {s : State L S} (h : Inv K s) : LiveOk (Live s) where
  closed := by
    rintro i l ks ⟨o, ho, hs⟩ k hk
    exact ⟨o, ho, sub_trans (.kid hk (.refl k)) hs⟩
  inj := h.inj

theorem inv_append_live {s : State L S} (h : Inv K s) (c : Cache)
    (hc : CacheOk K s.seed (Live s) c) (o : Obj L) (ho : Live s o) (d) :
    Inv K { s with cache := c, objs := s.objs ++ [o], disk := d } := by
  have hl : ∀ x, Live { s with cache := c, objs := s.objs ++ [o], disk := d } x → Live s x := by
    rintro x ⟨o', ho', hx⟩
    simp at ho'
    rcases ho' with ho' | rfl
    · exact ⟨o', ho', hx⟩
    · obtain ⟨p, hp, hs⟩ := ho
      exact ⟨p, hp, sub_trans hx hs⟩
  exact ⟨fun x y hx hy => h.inj x y (hl x hx) (hl y hy), fun x hx => h.lt x (hl x hx),
    fun x hx => hc x (hl x hx)⟩

theorem inv_cache {s : State L S} (h : Inv K s) (c : Cache) (hc : CacheOk K s.seed (Live s) c) (d) :
    Inv K { s with cache := c, disk := d } := ⟨h.inj, h.lt, hc⟩

theorem inv_load {s : State L S} (h : Inv K s) {c : Cache} (hc : CacheOk K s.seed (Live s) c)
    (b : Blob L) :
    Inv K { s with
            objs := s.objs ++ [(loadBlob s.nxt c b).1], nxt := (loadBlob s.nxt c b).2.1,
            cache := (loadBlob s.nxt c b).2.2 } := by
  have hl := loadBlob_ok b s.nxt c
  generalize loadBlob s.nxt c b = r at *
  obtain ⟨o, n', c'⟩ := r
  simp only at *
  have split : ∀ x, Live { s with objs := s.objs ++ [o], nxt := n', cache := c' } x →
      Live s x ∨ Sub x o := by
    rintro x ⟨o', ho', hx⟩
    simp at ho'
    rcases ho' with ho' | rfl
    · exact Or.inl ⟨o', ho', hx⟩
    · exact Or.inr hx
  refine ⟨?_, ?_, ?_⟩
  · intro x y hx hy e
    rcases split x hx with hx | hx <;> rcases split y hy with hy | hy
    · exact h.inj x y hx hy e
    · have := h.lt x hx; have := hl.fresh o (by simp) y hy; omega
    · have := h.lt y hy; have := hl.fresh o (by simp) x hx; omega
    · exact hl.inj o (by simp) o (by simp) x y hx hy e
  · intro x hx
    rcases split x hx with hx | hx
    · exact Nat.lt_of_lt_of_le (h.lt x hx) hl.le
    · exact (hl.fresh o (by simp) x hx).2
  · intro x hx v hv
    simp only at hv
    rcases split x hx with hx | hx
    · rw [hl.keep _ (Or.inl (h.lt x hx))] at hv
      exact hc x hx v hv
    · have := hl.fresh o (by simp) x hx
      rw [hl.none _ this.1 this.2] at hv
      simp at hv

theorem live_of_get {s : State L S} {i : Nat} {o : Obj L} (h : s.objs[i]? = some o) : Live s o :=
  ⟨o, List.mem_of_getElem? h, .refl o⟩

theorem inv_step {s : State L S} (h : Inv K s) (op : Op L S) : Inv K (step K s op).1 := by
  cases op with
  | build lab parts =>
    simp only [step]
    have hk : ∀ k ∈ parts.filterMap (fun i => s.objs[i]?), Live s k := by
      intro k hk
      obtain ⟨i, _, hi⟩ := List.mem_filterMap.mp hk
      exact live_of_get hi
    generalize parts.filterMap (fun i => s.objs[i]?) = ks at *
    have split : ∀ x, Live { s with
                             objs := s.objs ++ [.mk s.nxt lab ks], nxt := s.nxt + 1,
                             cache := s.cache.pop s.nxt } x → Live s x ∨ x = .mk s.nxt lab ks := by
      rintro x ⟨o', ho', hx⟩
      simp at ho'
      rcases ho' with ho' | rfl
      · exact Or.inl ⟨o', ho', hx⟩
      · cases hx with
        | refl => exact Or.inr rfl
        | kid hkk hx =>
          obtain ⟨p, hp, hs⟩ := hk _ hkk
          exact Or.inl ⟨p, hp, sub_trans hx hs⟩
    refine ⟨?_, ?_, ?_⟩
    · intro x y hx hy e
      rcases split x hx with hx | rfl <;> rcases split y hy with hy | rfl
      · exact h.inj x y hx hy e
      · have := h.lt x hx; simp [Obj.id] at e this; omega
      · have := h.lt y hy; simp [Obj.id] at e this; omega
      · rfl
    · intro x hx
      rcases split x hx with hx | rfl
      · have := h.lt x hx; simp only; omega
      · simp [Obj.id]
    · intro x hx v hv
      simp only [Cache.pop] at hv
      rcases split x hx with hx | rfl
      · split at hv
        · simp at hv
        · exact h.cache x hx v hv
      · simp [Obj.id] at hv
  | part i j =>
    simp only [step]
    split
    · exact h
    · next o ho =>
      split
      · exact h
      · next k hk =>
        refine inv_append_live h s.cache h.cache k ?_ s.disk
        obtain ⟨p, hp, hs⟩ := live_of_get ho
        refine ⟨p, hp, sub_trans ?_ hs⟩
        cases o
        exact .kid (List.mem_of_getElem? hk) (.refl k)
  | hash i =>
    simp only [step]
    split
    · exact h
    · next o ho =>
      exact inv_cache h _ (hashObj_ok h.liveOk o (live_of_get ho) _ h.cache).2 _
  | dump i =>
    simp only [step]
    split
    · exact h
    · next o ho => exact inv_cache h _ (dumpObj_ok o _ h.cache) _
  | load i =>
    simp only [step]
    split
    · exact h
    · next b hb => exact inv_load h h.cache b
  | copy i =>
    simp only [step]
    split
    · exact h
    · next o ho => exact inv_append_live h _ (cacheOk_pop h.cache _) o (live_of_get ho) s.disk
  | deepcopy i =>
    simp only [step]
    split
    · exact h
    · next o ho => exact inv_load h (dumpObj_ok o _ h.cache) _
  | restart seed =>
    simp only [step]
    refine ⟨?_, ?_, ?_⟩
    · rintro x y ⟨o, ho, _⟩; simp at ho
    · rintro x ⟨o, ho, _⟩; simp at ho
    · rintro x ⟨o, ho, _⟩; simp at ho

theorem inv_init (seed : S) : Inv K (init seed : State L S) := by
  refine ⟨?_, ?_, ?_⟩
  · rintro x y ⟨o, ho, _⟩; simp [init] at ho
  · rintro x ⟨o, ho, _⟩; simp [init] at ho
  · rintro x ⟨o, ho, _⟩; simp [init] at ho

theorem inv_run {s : State L S} (h : Inv K s) (ops : List (Op L S)) : Inv K (run K s ops) := by
  induction ops generalizing s with
  | nil => exact h
  | cons op ops ih => exact ih (inv_step h op)

mutual
/-- The content of an object, without identities. -/
def Obj.content : Obj L → Blob L
  | .mk _ l ks => .mk none l (Obj.contents ks)
def Obj.contents : List (Obj L) → List (Blob L)
  | [] => []
  | o :: os => o.content :: Obj.contents os
end

theorem dumpObj_content (o : Obj L) : ∀ c, (dumpObj c o).1 = o.content := by
  induction o using Obj.ind with
  | h i l ks ih =>
    intro c
    have hks : ∀ ks : List (Obj L), (∀ k ∈ ks, ∀ c, (dumpObj c k).1 = k.content) →
        ∀ c, (dumpObjs c ks).1 = Obj.contents ks := by
      intro ks
      induction ks with
      | nil => intro _ c; simp [dumpObjs, Obj.contents]
      | cons k ks ihk =>
        intro hk c
        simp [dumpObjs, Obj.contents, hk k (by simp), ihk (fun x hx => hk x (List.mem_cons_of_mem _ hx))]
    simp [dumpObj, Obj.content, hks ks ih, Cache.pop]

mutual
/-- Erase a memoised hash from pickled data. -/
def Blob.erase : Blob L → Blob L
  | .mk _ l ks => .mk none l (Blob.erases ks)
def Blob.erases : List (Blob L) → List (Blob L)
  | [] => []
  | o :: os => o.erase :: Blob.erases os
end

theorem loadBlob_content (b : Blob L) : ∀ n c, (loadBlob n c b).1.content = b.erase := by
  induction b using Blob.ind with
  | h h l bs ih =>
    intro n c
    have hks : ∀ ks : List (Blob L), (∀ k ∈ ks, ∀ n c, (loadBlob n c k).1.content = k.erase) →
        ∀ n c, Obj.contents (loadBlobs n c ks).1 = Blob.erases ks := by
      intro ks
      induction ks with
      | nil => intro _ n c; simp [loadBlobs, Obj.contents, Blob.erases]
      | cons k ks ihk =>
        intro hk n c
        simp [loadBlobs, Obj.contents, Blob.erases, hk k (by simp),
          ihk (fun x hx => hk x (List.mem_cons_of_mem _ hx))]
    simp [loadBlob, Obj.content, Blob.erase, hks bs ih]

end Pddl.CacheHash
