/- C05: memoised hashes never go stale. -/
import Verif.Proofs.CacheHash

namespace Pddl.Props
open Pddl.CacheHash Pddl.Spec

/-- After any history of building, taking parts, hashing, pickling, unpickling,
copying and interpreter restarts (each with its own seed), the value returned by
`hash(x)` is the one a freshly built object with the same content would give in
the current interpreter. -/
theorem C05_hash_fresh {L S : Type} (K : Classes L S) (seed : S) (ops : List (Op L S)) (i : Nat)
    (o : Obj L) (h : (run K (init seed) ops).objs[i]? = some o) :
    (step K (run K (init seed) ops) (.hash i)).2 =
      some (freshHash K (run K (init seed) ops).seed o) := by
  have hi := inv_run (inv_init (K := K) (L := L) seed) ops
  have := hashObj_ok (σ := (run K (init seed) ops).seed) hi.liveOk o (live_of_get h) _ hi.cache
  simp only [step, h]
  rw [this.1]

/-- Pickling and unpickling (in whatever interpreter) gives back the content. -/
theorem C05_pickle_content {L : Type} (c c' : Cache) (n : Nat) (o : Obj L) :
    (loadBlob n c' (dumpObj c o).1).1.content = o.content := by
  rw [loadBlob_content, dumpObj_content]
  induction o using Obj.ind with
  | h i l ks ih =>
    have hks : ∀ ks : List (Obj L), (∀ k ∈ ks, k.content.erase = k.content) →
        Blob.erases (Obj.contents ks) = Obj.contents ks := by
      intro ks
      induction ks with
      | nil => intro _; simp [Obj.contents, Blob.erases]
      | cons k ks ihk =>
        intro hk
        simp [Obj.contents, Blob.erases, hk k (by simp), ihk (fun x hx => hk x (List.mem_cons_of_mem _ hx))]
    simp [Obj.content, Blob.erase, hks ks ih]

/-- A history with a non-trivial object: built, hashed, pickled, restarted with
another seed, unpickled; both hash calls answer, with different values. -/
example :
    let K : Classes Nat Nat := ⟨fun σ l hs => σ + l + hs.sum, fun l => l = 0⟩
    let ops : List (Op Nat Nat) := [.build 1 [], .build 0 [0, 0], .hash 1, .dump 1]
    (run K (init 10) ops).objs[1]?.isSome = true ∧
    (step K (run K (init 10) ops) (.hash 1)).2 = some 32 ∧
    (step K (run K (init 10) (ops ++ [.restart 100, .load 0])) (.hash 0)).2 = some 302 := by
  decide +kernel

end Pddl.Props
