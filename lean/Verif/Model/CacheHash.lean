/-
pddl/helpers/cache_hash.py: memoised hashes, pickling and copying.

An object is a node: an identity of its attribute dictionary, the rest of its
content (a label of some type `L`: class, names, numbers ...), and the objects it
refers to. The only mutable attribute is the memoised hash `"__hash"`, kept in
`cache`, indexed by the identity of the attribute dictionary.
-/
import Mathlib.Data.List.Basic

namespace Pddl.CacheHash

/-- A Python object (the classes decorated with `@cache_hash`, pddl/helpers/cache_hash.py:98-117). -/
inductive Obj (L : Type)
  | mk (id : Nat) (lab : L) (kids : List (Obj L))

/-- Pickled data: the state dictionaries, including a `"__hash"` entry if the
state dictionary had one when it was written (pddl/helpers/cache_hash.py:54-61). -/
inductive Blob (L : Type)
  | mk (hash : Option Int) (lab : L) (kids : List (Blob L))

/-- The `"__hash"` entries of the live attribute dictionaries (pddl/helpers/cache_hash.py:33-35). -/
abbrev Cache := Nat → Option Int

/-- `self.__hash = h` (pddl/helpers/cache_hash.py:34). -/
def Cache.set (c : Cache) (i : Nat) (h : Int) : Cache := fun j => if j = i then some h else c j
/-- `d.pop("__hash", None)` and `del self.__hash` (pddl/helpers/cache_hash.py:60, 93). -/
def Cache.pop (c : Cache) (i : Nat) : Cache := fun j => if j = i then none else c j

/-- What the classes do: `comb σ l hs` is the value computed by the undecorated
`__hash__` in interpreter `σ` from the hashes of the parts; `memo l` tells whether
the class's own `__hash__` is wrapped by `@cache_hash` (pddl/helpers/cache_hash.py:98-117). -/
structure Classes (L S : Type) where
  comb : S → L → List Int → Int
  memo : L → Bool

variable {L S : Type} (K : Classes L S) (σ : S)

mutual
/-- `hash(x)`: the wrapper of `_cache_hash` (pddl/helpers/cache_hash.py:31-35)
for memoised classes, the plain method otherwise. -/
def hashObj : Cache → Obj L → Int × Cache
  | c, .mk id lab kids =>
    if K.memo lab then
      match c id with
      | some h => (h, c)
      | none =>
        let r := hashObjs c kids
        let h := K.comb σ lab r.1
        (h, r.2.set id h)
    else
      let r := hashObjs c kids
      (K.comb σ lab r.1, r.2)
/-- The parts in turn (pddl/helpers/cache_hash.py:34: `fn` hashes them). -/
def hashObjs : Cache → List (Obj L) → List Int × Cache
  | c, [] => ([], c)
  | c, o :: os =>
    let r := hashObj c o
    let rs := hashObjs r.2 os
    (r.1 :: rs.1, rs.2)
end

mutual
/-- Pickling: `__getstate__` (lines 53-60, 66-68) returns the live attribute
dictionary after removing `"__hash"` from it; the parts are pickled likewise.
(Sharing between parts is not kept in the blob.) -/
def dumpObj : Cache → Obj L → Blob L × Cache
  | c, .mk id lab kids =>
    let c1 := c.pop id
    let h := c1 id
    let r := dumpObjs c1 kids
    (.mk h lab r.1, r.2)
/-- The parts in turn (pddl/helpers/cache_hash.py:54-61). -/
def dumpObjs : Cache → List (Obj L) → List (Blob L) × Cache
  | c, [] => ([], c)
  | c, o :: os =>
    let r := dumpObj c o
    let rs := dumpObjs r.2 os
    (r.1 :: rs.1, rs.2)
end

/-- `__setstate__` (lines 71-73, 90-93) of a new object with dictionary `i` from
a state whose `"__hash"` entry is `h`: the object gets the state, then a
`"__hash"` found there is deleted. -/
def Cache.setState (c : Cache) (i : Nat) (h : Option Int) : Cache :=
  let c1 := match h with
    | some v => c.set i v
    | none => c.pop i
  match c1 i with
  | some _ => c1.pop i
  | none => c1

mutual
/-- Unpickling: parts first, then `__setstate__`. `n` is the next unused identity
(pddl/helpers/cache_hash.py:89-95). -/
def loadBlob : Nat → Cache → Blob L → Obj L × Nat × Cache
  | n, c, .mk h lab kids =>
    let r := loadBlobs n c kids
    (.mk r.2.1 lab r.1, r.2.1 + 1, r.2.2.setState r.2.1 h)
/-- The parts in turn (pddl/helpers/cache_hash.py:89-95). -/
def loadBlobs : Nat → Cache → List (Blob L) → List (Obj L) × Nat × Cache
  | n, c, [] => ([], n, c)
  | n, c, b :: bs =>
    let r := loadBlob n c b
    let rs := loadBlobs r.2.1 r.2.2 bs
    (r.1 :: rs.1, rs.2.1, rs.2.2)
end

/-- A running interpreter with its objects, and the pickles written so far (pddl/helpers/cache_hash.py:43-48). -/
structure State (L S : Type) where
  seed : S
  nxt : Nat
  cache : Cache
  objs : List (Obj L)
  disk : List (Blob L)

/-- What a client does with objects of classes decorated by `@cache_hash` (pddl/helpers/cache_hash.py:98-117). -/
inductive Op (L S : Type)
  /-- build a new object from existing ones -/
  | build (lab : L) (parts : List Nat)
  /-- take a part of an existing object (`f.operands[j]`) -/
  | part (i j : Nat)
  /-- `hash(x)` (also what set and dict operations do) -/
  | hash (i : Nat)
  /-- `pickle.dumps(x)` -/
  | dump (i : Nat)
  /-- `pickle.loads(b)` -/
  | load (i : Nat)
  /-- `copy.copy(x)`: `__setstate__` makes the copy share the attribute
  dictionary returned by `__getstate__` (lines 66-73) -/
  | copy (i : Nat)
  /-- `copy.deepcopy(x)` -/
  | deepcopy (i : Nat)
  /-- a new interpreter; only pickles survive -/
  | restart (seed : S)

/-- The parts of an object, e.g. `operands` (pddl/logic/base.py:64-67). -/
def Obj.kids : Obj L → List (Obj L)
  | .mk _ _ ks => ks
/-- The identity of the attribute dictionary of an object (pddl/helpers/cache_hash.py:66-73). -/
def Obj.id : Obj L → Nat
  | .mk i _ _ => i

/-- One operation; the output is the value returned by `hash`. Operations on
objects that do not exist do nothing (pddl/helpers/cache_hash.py:31-95). -/
def step (s : State L S) : Op L S → State L S × Option Int
  | .build lab parts =>
    ({ s with objs := s.objs ++ [.mk s.nxt lab (parts.filterMap (fun i => s.objs[i]?))],
              nxt := s.nxt + 1, cache := s.cache.pop s.nxt }, none)
  | .part i j =>
    match s.objs[i]? with
    | none => (s, none)
    | some o => match o.kids[j]? with
      | none => (s, none)
      | some k => ({ s with objs := s.objs ++ [k] }, none)
  | .hash i =>
    match s.objs[i]? with
    | none => (s, none)
    | some o =>
      let r := hashObj K s.seed s.cache o
      ({ s with cache := r.2 }, some r.1)
  | .dump i =>
    match s.objs[i]? with
    | none => (s, none)
    | some o =>
      let r := dumpObj s.cache o
      ({ s with cache := r.2, disk := s.disk ++ [r.1] }, none)
  | .load i =>
    match s.disk[i]? with
    | none => (s, none)
    | some b =>
      let r := loadBlob s.nxt s.cache b
      ({ s with objs := s.objs ++ [r.1], nxt := r.2.1, cache := r.2.2 }, none)
  | .copy i =>
    match s.objs[i]? with
    | none => (s, none)
    | some o => ({ s with cache := s.cache.pop o.id, objs := s.objs ++ [o] }, none)
  | .deepcopy i =>
    match s.objs[i]? with
    | none => (s, none)
    | some o =>
      let d := dumpObj s.cache o
      let r := loadBlob s.nxt d.2 d.1
      ({ s with objs := s.objs ++ [r.1], nxt := r.2.1, cache := r.2.2 }, none)
  | .restart seed =>
    ({ seed := seed, nxt := 0, cache := fun _ => none, objs := [], disk := s.disk }, none)

/-- The state after a history (calls of pddl/helpers/cache_hash.py:31-95). -/
def run (s : State L S) : List (Op L S) → State L S
  | [] => s
  | op :: ops => run (step K s op).1 ops

/-- A fresh interpreter with no object (as in pddl/helpers/cache_hash.py:47-48). -/
def init (seed : S) : State L S := ⟨seed, 0, fun _ => none, [], []⟩

end Pddl.CacheHash
