import Verif.Graph.HeapWorld
/-
C100: graph objects share no dictionary with each other or with their caller.

The other property files treat graphs as values.  Here graph objects are addresses of mutable
dictionaries (`Verif/Graph/Heap.lean`), and the theorems say that for every program — any number of
graph objects, copies, subgraphs, `to_dict` results, and dictionaries of the caller that may be
aliased and changed in any way — an object behaves as the value level model says, and is changed
only by operations on it.
-/
namespace GT
open Mem Graph
variable {α V O : Type} [DecidableEq α]

/-- **C100**. In every reachable state of memory, a public operation on object `i` has on object `i`
the effect the value level model says (and raises when it says so), leaves every other graph object
as it is, and leaves every dictionary of the caller as it is. -/
theorem C100_operation {w : World α V O} (hw : w.Reachable) {i : Nat} {g : Graph α V O}
    (hg : w.graph i = some g) (op : Op α V O) :
    ((g.stepE op).2 = none ∧ ∃ w', w.step (.on i op) = .ok w' ∧ w'.graph i = some (g.stepE op).1 ∧
      (∀ j, j ≠ i → w'.graph j = w.graph j) ∧ SameDicts w w') ∨
    ∃ e, (g.stepE op).2 = some e ∧ w.step (.on i op) = .error e := by
  rcases wok_on hw.wok hg op with ⟨w', e, _, h1, _, h2, h3, h4⟩ | ⟨e, e1, e2⟩
  · exact Or.inl ⟨h1, w', e, h2, h3, h4⟩
  · exact Or.inr ⟨e, by rw [e2], e1⟩

/-- **C100**, `Graph()`, `copy()` and `subgraph()`: a new object with the value the model says;
everything that was there is unchanged. -/
theorem C100_new_objects {w : World α V O} (hw : w.Reachable) :
    (∃ w', w.step .new = .ok w' ∧ w'.graph w.objs.length = some Graph.empty ∧
      (∀ j, j < w.objs.length → w'.graph j = w.graph j) ∧ SameDicts w w') ∧
    (∀ i g, w.graph i = some g → ∃ w', w.step (.copy i) = .ok w' ∧
      w'.graph w.objs.length = some g.copy ∧
      (∀ j, j < w.objs.length → w'.graph j = w.graph j) ∧ SameDicts w w') ∧
    (∀ i g ns, w.graph i = some g → ∃ w', w.step (.subgraph i ns) = .ok w' ∧
      w'.graph w.objs.length = some (g.subgraph ns) ∧
      (∀ j, j < w.objs.length → w'.graph j = w.graph j) ∧ SameDicts w w') := by
  refine ⟨?_, fun i g hg => ?_, fun i g ns hg => ?_⟩
  · obtain ⟨w', e, _, h⟩ := wok_new hw.wok; exact ⟨w', e, h⟩
  · obtain ⟨w', e, _, h⟩ := wok_copy hw.wok hg; exact ⟨w', e, h⟩
  · obtain ⟨w', e, _, h⟩ := wok_subgraph hw.wok hg ns; exact ⟨w', e, h⟩

/-- **C100**, `to_dict()`: the caller receives a dictionary it did not hold, with rows it did not
hold; no graph and no other dictionary of the caller changes. -/
theorem C100_to_dict {w : World α V O} (hw : w.Reachable) {i : Nat} {g : Graph α V O}
    (hg : w.graph i = some g) :
    ∃ w' A, w.step (.toDict i) = .ok w' ∧ w'.dicts = A :: w.dicts ∧ A ∉ w.dicts ∧
      g.toDictE = .ok (w'.heap.nested A) ∧ (∀ r ∈ (w'.heap.out A).values, r ∉ w.rows) ∧
      (∀ j, w'.graph j = w.graph j) ∧ SameDicts w w' := by
  obtain ⟨w', A, e, _, h1, h2, h3, h4, _, h5, h6⟩ := wok_toDict hw.wok hg
  exact ⟨w', A, e, h1, h2, h3, h4, h5, h6⟩

/-- **C100**, `from_dict(d)`: `d` is read, never kept. -/
theorem C100_from_dict {w : World α V O} (hw : w.Reachable) {i : Nat} {g : Graph α V O}
    (hg : w.graph i = some g) {A : Nat} (hA : A ∈ w.dicts) :
    ∃ w', w.step (.fromDict i A) = .ok w' ∧ w'.graph i = some (g.fromDict (w.heap.nested A)) ∧
      (∀ j, j ≠ i → w'.graph j = w.graph j) ∧ SameDicts w w' := by
  obtain ⟨w', e, _, _, h⟩ := wok_fromDict hw.wok hg hA
  exact ⟨w', e, h⟩

/-- **C100**: whatever the caller does to the dictionaries it passed to, or received from, graph
objects, no graph object changes. -/
theorem C100_caller_cannot_reach_graphs {w : World α V O} (hw : w.Reachable) (a : Act α V O)
    (ha : a.ofCaller = true) : ∃ w', w.step a = .ok w' ∧ ∀ j, w'.graph j = w.graph j := by
  obtain ⟨w', e, _, _, h⟩ := wok_caller hw.wok a ha
  exact ⟨w', e, h⟩

/-- **C100**, whole programs: an object is unchanged by a program that performs no operation on
it — whatever it does to its copies, to subgraphs, and to dictionaries. -/
theorem C100_unchanged {w : World α V O} (hw : w.Reachable) {i : Nat} {g : Graph α V O}
    (hg : w.graph i = some g) (prog : List (Act α V O)) (hp : ∀ a ∈ prog, a.on? i = false) :
    (World.run prog w).graph i = some g := by
  have k := hw.wok
  clear hw
  unfold World.run
  induction prog generalizing w with
  | nil => exact hg
  | cons a prog ih =>
    simp only [List.foldl_cons]
    cases h : w.step a with
    | error e => exact ih hg (fun b hb => hp b (List.mem_cons_of_mem _ hb)) k
    | ok w' =>
      exact ih (step_other k hg (hp a (by simp)) h) (fun b hb => hp b (List.mem_cons_of_mem _ hb))
        (wok_step k a h)

/-- **C100**, the connection with all the other properties: every graph object in every reachable
state of memory is, as a value, a graph some history of public operations builds. -/
theorem C100_every_object_built {w : World α V O} (hw : w.Reachable) {i : Nat} {g : Graph α V O}
    (hg : w.graph i = some g) : g.Built := by
  obtain ⟨o, ho, rfl⟩ := graph_eq hg
  exact hw.wok.built o (List.mem_of_getElem? ho)

/-- A program: a graph with two edges from 1, its copy, its dictionary; then the caller clears the
row of 1 in the dictionary, loads the dictionary into the copy after deleting node 1 there, and
makes a subgraph of the original. -/
def heapProg : List (Act Nat Nat Nat) :=
  [.new, .on 0 (.addEdge 1 2 (.scalar 5) false), .on 0 (.addEdge 1 3 (.scalar 6) true), .copy 0, .toDict 0,
   .on 1 (.delNode 1), .setRow 23 ⟨[(7, 7)]⟩, .fromDict 1 22, .subgraph 0 [1, 3]]

example : ((World.run heapProg World.start).graph 0).map Graph.edgeList
    = some [(1, 2, 5), (1, 3, 6), (3, 1, 6)] := by decide +kernel
example : ((World.run heapProg World.start).graph 1).map Graph.edgeList
    = some [(1, 7, 7), (3, 1, 6)] := by decide +kernel
example : ((World.run heapProg World.start).graph 2).map Graph.edgeList
    = some [(1, 3, 6), (3, 1, 6)] := by decide +kernel
example : (World.run heapProg World.start).dicts = [22] ∧
    (World.run heapProg World.start).rows = [23, 24, 25] ∧ 
    ((World.run heapProg World.start).heap.nested 22).items = [(1, ⟨[(7, 7)]⟩), (2, ⟨[]⟩), (3, ⟨[(1, 6)]⟩)] := by
  decide +kernel
/-- the hypotheses of `C100_unchanged` are met by the rest of that program and object 0 -/
example : ∀ a ∈ heapProg.drop 3, a.on? 0 = false := by decide +kernel

end GT
