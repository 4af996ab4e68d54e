import Verif.Props.Flow
import Verif.Other.Fsm
import Verif.Other.GraphHash
import Verif.Other.FlowHash
import Verif.Other.FlowHashLevel
/-
Property theorems C44–C47: state machines and hashes.
-/
namespace GT
open Graph
variable {α V O A B : Type} [DecidableEq α]

/-! ### C44 -/

/-- **C44**, for all histories in which no state is one of the integers `0, 1, 2, ...` that the library uses as action ids: what the
calls of a `FiniteStateMachine` return and raise is what the declared transitions say.
Missing: integer states (counterexample below). -/
theorem C44_fsm_partial [DecidableEq A] {aid : Nat → α} (hinj : ∀ i j, aid i = aid j → i = j) (ops : List (FsmOp α A))
    (hs : ∀ op ∈ ops, ∀ s ∈ op.states, ∀ i, s ≠ aid i) :
    (Fsm.new : Fsm α A).outputs aid ops = (⟨[], none⟩ : Machine α A).outputs ops :=
  (FsmInv.init aid).outputs hinj ops hs

/-- a turnstile: states are texts (`inr`), action ids integers (`inl`) -/
def turnstile : List (FsmOp (Nat ⊕ String) String) :=
  [.next "push", .addTransition (.inr "locked") "coin" (.inr "unlocked"), .addTransition (.inr "unlocked") "push" (.inr "locked"),
   .addTransition (.inr "locked") "coin" (.inr "locked"), .setInitialState (.inr "locked"), .options, .next "push", .next "coin", .options]

/-- the hypotheses are met, and the machine answers -/
example : (∀ i j, (Sum.inl i : Nat ⊕ String) = .inl j → i = j) ∧ (∀ op ∈ turnstile, ∀ s ∈ op.states, ∀ i, s ≠ .inl i) ∧
    (Fsm.new : Fsm (Nat ⊕ String) String).outputs .inl turnstile =
      [.error .valueError, .ok none, .ok none, .ok none, .ok none, .ok (some ["coin", "coin"]), .error .valueError, .ok none, .ok (some ["push"])] := by
  refine ⟨fun i j h => by cases h; rfl, fun op hop s hs i h => ?_, by decide +kernel⟩
  subst h
  have : ∀ op ∈ turnstile, ∀ s ∈ op.states, s.isLeft = false := by decide +kernel
  exact absurd (this op hop _ hs) (by simp)

/-- **C44** fails for integer states: they are the same as action ids.  In the machine `1 -a-> 2 -b-> 1` started in 1, `options()`
lists `b` as well. -/
theorem C44_integer_states_counterexample :
    (Fsm.new : Fsm Nat String).outputs id [.addTransition 1 "a" 2, .addTransition 2 "b" 1, .setInitialState 1, .options]
      = [.ok none, .ok none, .ok none, .ok (some ["a", "b"])] ∧
    (⟨[], none⟩ : Machine Nat String).outputs [.addTransition 1 "a" 2, .addTransition 2 "b" 1, .setInitialState 1, .options]
      = [.ok none, .ok none, .ok none, .ok (some ["a"])] := by
  decide +kernel

/-! ### C45 -/

section
variable [DecidableEq B]

/-- **C45**. Let `H` be a hash with digests of length `L` without collisions among the strings that are hashed.  For every non-empty list of
blocks (none of which is as long as two digests) `merkle_tree` returns a graph with exactly one root. -/
theorem C45_merkle_single_root {H : List B → List B} {L : Nat} (hL : ∀ x, (H x).length = L) {bs : List (List B)} (h0 : bs ≠ [])
    (hc : NoCollision H (merkleInputs H bs)) (hb : ∀ b ∈ bs, b.length ≠ 2 * L) :
    ∃ g r, merkleTree H bs = some (some g) ∧ (∀ x, (g.has x = true ∧ ∀ y, ¬ g.Adj x y) ↔ x = r) := by
  obtain ⟨g, r, h1, h2⟩ := merkleTree_single hL h0 hc hb
  obtain ⟨g', e1, e2, e3, _⟩ := merkleTree_main H bs h0
  rw [e1] at h1; cases h1
  refine ⟨g, r, e1, fun x => ?_⟩
  have := mem_nodesOutDeg_zero e2 e3 x
  rw [h2, List.mem_singleton] at this
  rw [this, has_iff]
  constructor
  · rintro ⟨h1, h2⟩; exact ⟨h1, fun m => by simpa [Adj] using h2 m⟩
  · rintro ⟨h1, h2⟩; exact ⟨h1, fun m hm => by unfold Adj at hm; rw [h2 m] at hm; cases hm⟩

/-- **C45**. Under the same conditions the root determines the blocks, given their number: if the trees of two lists of the same length
have a root in common, the lists are equal. -/
theorem C45_merkle_binding {H : List B → List B} {L : Nat} (hL : ∀ x, (H x).length = L) {bs bs' : List (List B)} (hlen : bs.length = bs'.length)
    (hc : NoCollision H (merkleInputs H bs ++ merkleInputs H bs')) {g g' : Graph (List B) Unit Unit} (h : merkleTree H bs = some (some g))
    (h' : merkleTree H bs' = some (some g')) {r : List B} (hr : g.has r = true ∧ ∀ y, ¬ g.Adj r y) (hr' : g'.has r = true ∧ ∀ y, ¬ g'.Adj r y) :
    bs = bs' := by
  have key : ∀ {bs : List (List B)} {g : Graph (List B) Unit Unit}, merkleTree H bs = some (some g) → (g.has r = true ∧ ∀ y, ¬ g.Adj r y) → r ∈ g.nodesOutDeg 0 := by
    intro bs g h hr
    have h0 : bs ≠ [] := by
      rintro rfl
      unfold merkleTree at h
      rw [pyWhile_eq] at h
      cases h
    obtain ⟨g', h1, h2, h3, _⟩ := merkleTree_main H bs h0
    rw [h1] at h; cases h
    exact (mem_nodesOutDeg_zero h2 h3 r).2 ⟨has_iff.1 hr.1, fun m => by simpa [Adj] using hr.2 m⟩
  exact merkleTree_binding hL hlen hc h h' (key h hr) (key h' hr')

/-- `merkle_tree` of no blocks is `None`. -/
theorem C45_merkle_empty (H : List B → List B) : merkleTree H [] = some none := by
  unfold merkleTree; rw [pyWhile_eq]; rfl

/-- **C45** needs "of the same length", for every hash: the single block `H x ++ H y` has the root of the two blocks `x, y`. -/
theorem C45_no_domain_separation_counterexample (H : List B → List B) (x y : List B) (hx : H (H x ++ H y) ≠ H x) (hy : H (H x ++ H y) ≠ H y) :
    ∃ g g', merkleTree H [x, y] = some (some g) ∧ merkleTree H [H x ++ H y] = some (some g') ∧
      (g.has (H (H x ++ H y)) = true ∧ ∀ z, ¬ g.Adj (H (H x ++ H y)) z) ∧ (g'.has (H (H x ++ H y)) = true ∧ ∀ z, ¬ g'.Adj (H (H x ++ H y)) z) := by
  obtain ⟨g, h1, h2, h3, h4, h5⟩ := merkleTree_main H [x, y] (by simp)
  obtain ⟨g', e1, e2, e3, e4, e5⟩ := merkleTree_main H [H x ++ H y] (by simp)
  have m1 : merklePairs H ([x, y].map H) = [(H x, H y)] := by
    show merklePairs H [H x, H y] = _
    rw [merklePairs.eq_1]
    show _ :: merklePairs H [H (H x ++ H y)] = _
    rw [merklePairs.eq_3]
  have m2 : merklePairs H ([H x ++ H y].map H) = [] := by
    show merklePairs H [H (H x ++ H y)] = _
    rw [merklePairs.eq_3]
  refine ⟨g, g', h1, e1, ⟨has_iff.2 ((h4 _).2 ⟨H x ++ H y, ?_, rfl⟩), fun z hz => ?_⟩, has_iff.2 ((e4 _).2 ⟨H x ++ H y, ?_, rfl⟩), fun z hz => ?_⟩
  · unfold merkleInputs; rw [m1]; simp
  · obtain ⟨p, hp, _, h⟩ := (h5 _ _).1 hz
    rw [m1] at hp
    simp at hp
    subst hp
    exact h.elim hx hy
  · unfold merkleInputs; simp
  · obtain ⟨p, hp, _, h⟩ := (e5 _ _).1 hz
    rw [m2] at hp
    cases hp
end

/-- a toy hash with one-letter digests: the digest of a text of length `n` is `n`, of a text of length 2 its value in base 10 -/
def toyH (l : List Nat) : List Nat := match l with
  | [a, b] => [10 * a + b]
  | l => [l.length]

/-- the hypotheses are met: three blocks of lengths 1, 3, 4, and three other blocks -/
example : (∀ x, (toyH x).length = 1) ∧ NoCollision toyH (merkleInputs toyH [[5], [5, 5, 5], [5, 5, 5, 5]]) ∧
    (∀ b ∈ [[5], [5, 5, 5], [5, 5, 5, 5]], b.length ≠ 2 * 1) ∧
    NoCollision toyH (merkleInputs toyH [[5], [5, 5, 5], [5, 5, 5, 5]] ++ merkleInputs toyH [[5], [5, 5, 5], [5, 5, 5, 5, 5]]) ∧
    (∃ g r, merkleTree toyH [[5], [5, 5, 5], [5, 5, 5, 5]] = some (some g) ∧ (∀ x, (g.has x = true ∧ ∀ y, ¬ g.Adj x y) ↔ x = r)) ∧
    toyH (toyH [5] ++ toyH [5, 5, 5]) ≠ toyH [5] ∧ toyH (toyH [5] ++ toyH [5, 5, 5]) ≠ toyH [5, 5, 5] := by
  have h1 : ∀ x, (toyH x).length = 1 := by intro x; unfold toyH; split <;> rfl
  have h2 : merkleInputs toyH [[5], [5, 5, 5], [5, 5, 5, 5]] = [[5], [5, 5, 5], [5, 5, 5, 5], [1, 3], [4, 13]] := by
    unfold merkleInputs
    show _ ++ (merklePairs toyH [[1], [3], [4]]).map _ = _
    rw [merklePairs.eq_1]
    show _ ++ (([1], [3]) :: merklePairs toyH [[4], [13]]).map _ = _
    rw [merklePairs.eq_1]
    show _ ++ (([1], [3]) :: ([4], [13]) :: merklePairs toyH [[53]]).map _ = _
    rw [merklePairs.eq_3]
    rfl
  have h3 : merkleInputs toyH [[5], [5, 5, 5], [5, 5, 5, 5, 5]] = [[5], [5, 5, 5], [5, 5, 5, 5, 5], [1, 3], [5, 13]] := by
    unfold merkleInputs
    show _ ++ (merklePairs toyH [[1], [3], [5]]).map _ = _
    rw [merklePairs.eq_1]
    show _ ++ (([1], [3]) :: merklePairs toyH [[5], [13]]).map _ = _
    rw [merklePairs.eq_1]
    show _ ++ (([1], [3]) :: ([5], [13]) :: merklePairs toyH [[63]]).map _ = _
    rw [merklePairs.eq_3]
    rfl
  have hc : NoCollision toyH (merkleInputs toyH [[5], [5, 5, 5], [5, 5, 5, 5]]) := by rw [h2]; unfold NoCollision; decide
  have hb : ∀ b ∈ ([[5], [5, 5, 5], [5, 5, 5, 5]] : List (List Nat)), b.length ≠ 2 * 1 := by decide
  exact ⟨h1, hc, hb, by rw [h2, h3]; unfold NoCollision; decide, C45_merkle_single_root h1 (by simp) hc hb, by decide, by decide⟩

/-! ### C46 -/

/-- **C46**. Whatever the histories: graphs with the same nodes and edges have the same `graph_hash`.  `nlt` is `<` on the nodes,
`str`/`estr` the texts of nodes and edge tuples. -/
theorem C46_graph_hash_content {O' C : Type} {H : List Char → C} {nlt : α → α → Bool} (ho : TotalOrder nlt) {str : α → List Char}
    {estr : α × α × V → List Char} {g : Graph α V O} {g' : Graph α V O'} (hg : g.Built) (hg' : g'.Built) (hn : ∀ x, g.has x = g'.has x)
    (he : ∀ a b, g.edge a b = g'.edge a b) : g.graphHash H nlt str estr = g'.graphHash H nlt str estr :=
  graphHash_same ho hg.inv hg'.inv hn he

/-- **C46**, the converse, for a collision-free hash and nodes whose texts are distinct, not empty and contain neither `|` nor `(`: graphs
with the same `graph_hash` have the same nodes and edges.
Missing: nodes with other texts (counterexample below). -/
theorem C46_graph_hash_separates_partial {O' C : Type} {H : List Char → C} {nlt : α → α → Bool} {str : α → List Char} {estr : α × α × V → List Char}
    {g : Graph α V O} {g' : Graph α V O'} (hg : g.Built) (hg' : g'.Built)
    (hc : NoCollision H [g.hashText nlt str estr, g'.hashText nlt str estr])
    (hp : PlainText str estr (g.nodeList ++ g'.nodeList) (g.edgeList ++ g'.edgeList))
    (h : g.graphHash H nlt str estr = g'.graphHash H nlt str estr) : (∀ x, g.has x = g'.has x) ∧ ∀ a b, g.edge a b = g'.edge a b :=
  hashText_inj hg.inv hg'.inv hp (hc _ (by simp) _ (by simp) h)

theorem natLt_total : TotalOrder natLt :=
  ⟨by simp [natLt], by simp [natLt]; omega, by simp [natLt]; omega⟩

/-- texts of numbers: `n` strokes, and `(a, b)` for edges -/
def natStr (n : Nat) : List Char := List.replicate (n + 1) 'I'
def edgeStr (e : Nat × Nat × Rat) : List Char := '(' :: (natStr e.1 ++ ',' :: natStr e.2.1 ++ [','] ++ e.2.2.num.toNat.repr.toList ++ [')'])

/-- the hypotheses are met by two graphs built in different orders -/
example : TotalOrder natLt ∧ (run [W 1 2 5, W 2 3 6] : Graph Nat Rat Nat).Built ∧
    (∀ x, (run [W 1 2 5, W 2 3 6]).has x = (run [W 2 3 6, W 1 2 5]).has x) ∧
    (∀ a b, (run [W 1 2 5, W 2 3 6]).edge a b = (run [W 2 3 6, W 1 2 5]).edge a b) ∧
    (run [W 1 2 5, W 2 3 6]).nodeList = [1, 2, 3] ∧ (run [W 2 3 6, W 1 2 5]).nodeList = [2, 3, 1] ∧
    PlainText natStr edgeStr ([1, 2, 3] ++ [1, 2, 3]) ((run [W 1 2 5, W 2 3 6]).edgeList ++ (run [W 1 2 5, W 2 3 6]).edgeList) := by
  refine ⟨natLt_total, ⟨_, rfl⟩, fun x => ?_, fun a b => ?_, by decide +kernel, by decide +kernel, by decide +kernel, by decide +kernel, fun e he => ?_, by decide +kernel⟩
  · rw [Bool.eq_iff_iff, has_iff, has_iff, show (run [W 1 2 5, W 2 3 6]).nodeList = [1, 2, 3] by decide +kernel,
      show (run [W 2 3 6, W 1 2 5]).nodeList = [2, 3, 1] by decide +kernel]
    simp; omega
  · apply Option.ext
    intro v
    rw [← (Built.inv ⟨_, rfl⟩ : (run [W 1 2 5, W 2 3 6]).Inv).mem_edgeList, ← (Built.inv ⟨_, rfl⟩ : (run [W 2 3 6, W 1 2 5]).Inv).mem_edgeList,
      show (run [W 1 2 5, W 2 3 6]).edgeList = [(1, 2, 5), (2, 3, 6)] by decide +kernel,
      show (run [W 2 3 6, W 1 2 5]).edgeList = [(2, 3, 6), (1, 2, 5)] by decide +kernel]
    simp; grind
  · have : ∀ e ∈ (run [W 1 2 5, W 2 3 6]).edgeList ++ (run [W 1 2 5, W 2 3 6]).edgeList, '|' ∉ edgeStr e := by decide +kernel
    exact ⟨this e he, _, rfl⟩

/-- **C46** fails when texts contain `|`: the graph with the nodes `1` and `2` and the graph with the single node `1|2` are hashed
alike, whatever the hash function. -/
theorem C46_bar_counterexample {C : Type} (H : List Char → C) (nlt : List Char → List Char → Bool) (h : nlt ['2'] ['1'] = false)
    (estr : List Char × List Char × Rat → List Char) :
    (run [.addNode ['1'] none, .addNode ['2'] none] : Graph (List Char) Rat Nat).graphHash H nlt id estr
      = (run [.addNode ['1', '|', '2'] none] : Graph (List Char) Rat Nat).graphHash H nlt id estr ∧
    (run [.addNode ['1'] none, .addNode ['2'] none] : Graph (List Char) Rat Nat).has ['1'] = true ∧
    (run [.addNode ['1', '|', '2'] none] : Graph (List Char) Rat Nat).has ['1'] = false := by
  refine ⟨?_, by decide, by decide⟩
  unfold graphHash hashText
  rw [show (run [.addNode ['1'] none, .addNode ['2'] none] : Graph (List Char) Rat Nat).nodeList = [['1'], ['2']] by decide,
    show (run [.addNode ['1'] none, .addNode ['2'] none] : Graph (List Char) Rat Nat).edgeList = [] by decide,
    show (run [.addNode ['1', '|', '2'] none] : Graph (List Char) Rat Nat).nodeList = [['1', '|', '2']] by decide,
    show (run [.addNode ['1', '|', '2'] none] : Graph (List Char) Rat Nat).edgeList = [] by decide]
  have : pySort nlt [['1'], ['2']] = [['1'], ['2']] := by simp [pySort, insSorted, h]
  rw [this]
  rfl

/-! ### C47 -/

/-- **C47**, on every graph, with or without cycles: `flow_graph_hash` terminates; it raises `TypeError`, or the graph of hashes has exactly
the nodes that can be reached from a node without suppliers, among them all sinks, and gives every one of them the hash of its id followed by
the hashes of its suppliers, leaving out those that are on a cycle with it.  (`NoPhantom`: the history asked for no degree of a node that was
not in the graph.)  Missing: it must not raise on a DAG (counterexample below). -/
theorem C47_any_graph_partial {H : List B → List B} {str : α → List B} {g : Graph α V O} (hg : g.Built) (hph : g.NoPhantom)
    {cyc : α → α → Bool} (hcyc : ∀ x y, g.Adj y x → (cyc x y = true ↔ Reach g.Adj x y)) :
    ∃ r, g.flowGraphHash H str = some r ∧
      ((∃ hg, r = .ok hg ∧
          (∀ x, hg.has x = true ↔ ∃ s, g.has s = true ∧ (∀ y, ¬ g.Adj y s) ∧ Reach g.Adj s x) ∧
          (∀ x, hg.has x = true → ∃ d, hg.node x = some (x, some d) ∧
            d = H (str x ++ ((g.nodesTo x).filter (fun y => !cyc x y)).flatMap (digestOf hg))) ∧
          ∀ x, g.has x = true → (∀ y, ¬ g.Adj x y) → hg.has x = true) ∨
       r = .error .typeError) := by
  obtain ⟨r, h1, h2⟩ := flowGraphHash_main (H := H) (str := str) hg.inv hph hcyc
  refine ⟨r, h1, ?_⟩
  rcases h2 with ⟨hg', rfl, h2, h3, h4⟩ | rfl
  · exact .inl ⟨hg', rfl, h2, fun x hx => h3 x ((h2 x).1 hx), fun x hx hy => (h2 x).2 (h4 x hx hy)⟩
  · exact .inr rfl

/-- **C47**, on every DAG: `flow_graph_hash` terminates; it raises `TypeError`, or gives every node `x` the hash of its id followed by the
hashes of all its suppliers.  (`NoPhantom`: the history asked for no degree of a node that was not in the graph.)
Missing: it must not raise (counterexample below; it does not on the graphs of the next theorem). -/
theorem C47_flow_graph_hash_partial {H : List B → List B} {str : α → List B} {g : Graph α V O} (hg : g.Built) (hph : g.NoPhantom)
    (hA : Acyclic g.Adj) :
    ∃ r, g.flowGraphHash H str = some r ∧
      ((∃ hg, r = .ok hg ∧ ∀ x, g.has x = true → ∃ d, hg.node x = some (x, some d) ∧ d = H (str x ++ (g.nodesTo x).flatMap (digestOf hg))) ∨
       r = .error .typeError) := by
  obtain ⟨r, h1, h2⟩ := flowGraphHash_main (H := H) (str := str) hg.inv hph (isCyc_of_acyclic hA)
  refine ⟨r, h1, ?_⟩
  rcases h2 with ⟨hg', rfl, _, h3, _⟩ | rfl
  · refine .inl ⟨hg', rfl, fun x hx => ?_⟩
    obtain ⟨d, h4, h5⟩ := h3 x ((supplied_of_acyclic hg.inv hA x).2 hx)
    exact ⟨d, h4, by rw [upstream_acyclic] at h5; exact h5⟩
  · exact .inr rfl

/-- **C47**, in full for DAGs in which all ways from a source to a node have the same number of edges. -/
theorem C47_flow_graph_hash_layered {H : List B → List B} {str : α → List B} {g : Graph α V O} (hg : g.Built) (hph : g.NoPhantom)
    {rank : α → Nat} (h1 : ∀ a b, g.Adj a b → rank b = rank a + 1) (h0 : ∀ x, g.has x = true → (∀ y, ¬ g.Adj y x) → rank x = 0) :
    ∃ hg, g.flowGraphHash H str = some (.ok hg) ∧
      ∀ x, g.has x = true → ∃ d, hg.node x = some (x, some d) ∧ d = H (str x ++ (g.nodesTo x).flatMap (digestOf hg)) := by
  obtain ⟨hg', h⟩ := flowGraphHash_layered (H := H) (str := str) hg.inv hph (rank := rank) ⟨h1, h0⟩
  obtain ⟨r, e1, e2⟩ := C47_flow_graph_hash_partial (H := H) (str := str) hg hph (Layered.acyclic ⟨h1, h0⟩)
  rw [h] at e1; cases e1
  rcases e2 with ⟨hg2, e, e2⟩ | e
  · cases e; exact ⟨_, h, e2⟩
  · cases e

theorem flatMap_fixed_inj {β : Type} {f f' : β → List B} {L : Nat} : ∀ (l l' : List β), (∀ x ∈ l, (f x).length = L) → (∀ x ∈ l', (f' x).length = L) → 0 < L →
    l.flatMap f = l'.flatMap f' → l.map f = l'.map f'
  | [], [], _, _, _, _ => rfl
  | [], y :: l', _, h2, hL, h => by
    have := h2 y (by simp)
    have h3 := congrArg List.length h
    simp only [List.flatMap_nil, List.length_nil, List.flatMap_cons, List.length_append] at h3
    omega
  | x :: l, [], h1, _, hL, h => by
    have := h1 x (by simp)
    have h3 := congrArg List.length h
    simp only [List.flatMap_nil, List.length_nil, List.flatMap_cons, List.length_append] at h3
    omega
  | x :: l, y :: l', h1, h2, hL, h => by
    rw [List.flatMap_cons, List.flatMap_cons] at h
    obtain ⟨e1, e2⟩ := List.append_inj h (by rw [h1 x (by simp), h2 y (by simp)])
    rw [List.map_cons, List.map_cons, e1,
      flatMap_fixed_inj l l' (fun x hx => h1 x (List.mem_cons_of_mem _ hx)) (fun x hx => h2 x (List.mem_cons_of_mem _ hx)) hL e2]

/-- **C47**, changes propagate: when two DAGs `g`, `g'` are hashed (by a hash with digests of length `L`, without collisions among the two
texts) and a node has the same digest in both, its suppliers have the same digests, in the same order.  So a change of the digest of a
supplier changes the digest of the node. -/
theorem C47_changes_propagate {H : List B → List B} {L : Nat} (hpos : 0 < L) (hL : ∀ x, (H x).length = L) {str : α → List B}
    {g g' : Graph α V O} (hg : g.Built) (hph : g.NoPhantom) (hA : Acyclic g.Adj) (hg' : g'.Built) (hph' : g'.NoPhantom) (hA' : Acyclic g'.Adj)
    {r r' : HashG α B} (h : g.flowGraphHash H str = some (.ok r)) (h' : g'.flowGraphHash H str = some (.ok r'))
    {x : α} (hx : g.has x = true) (hx' : g'.has x = true)
    (hc : NoCollision H [str x ++ (g.nodesTo x).flatMap (digestOf r), str x ++ (g'.nodesTo x).flatMap (digestOf r')])
    (he : r.node x = r'.node x) : (g.nodesTo x).map (digestOf r) = (g'.nodesTo x).map (digestOf r') := by
  obtain ⟨q, e1, e2⟩ := C47_flow_graph_hash_partial (H := H) (str := str) hg hph hA
  rw [h] at e1; cases e1
  obtain ⟨q', e1', e2'⟩ := C47_flow_graph_hash_partial (H := H) (str := str) hg' hph' hA'
  rw [h'] at e1'; cases e1'
  rcases e2 with ⟨_, e, e2⟩ | e <;> cases e
  rcases e2' with ⟨_, e, e2'⟩ | e <;> cases e
  obtain ⟨d, d1, d2⟩ := e2 x hx
  obtain ⟨d', d1', d2'⟩ := e2' x hx'
  rw [d1, d1'] at he
  simp only [Option.some.injEq, Prod.mk.injEq, true_and] at he
  subst he
  have ht := hc _ (by simp) _ (by simp) (d2.symm.trans d2')
  have ht := List.append_cancel_left ht
  refine flatMap_fixed_inj _ _ (fun y hy => ?_) (fun y hy => ?_) hpos ht
  · obtain ⟨d, h1, h2⟩ := e2 y (has_iff.2 (hg.inv.finite _ _ (hg.inv.mem_nodesTo.1 hy)).1)
    unfold digestOf; rw [h1]; show d.length = L; rw [h2]; exact hL _
  · obtain ⟨d, h1, h2⟩ := e2' y (has_iff.2 (hg'.inv.finite _ _ (hg'.inv.mem_nodesTo.1 hy)).1)
    unfold digestOf; rw [h1]; show d.length = L; rw [h2]; exact hL _

/-- `fhText` with bounded searches, for examples -/
def fhTextF (k : Nat) (g : Graph α V O) (hg : HashG α B) (source : α) : List α → List B → Option (Py (List B))
  | [], acc => some (.ok acc)
  | s :: l, acc => if g.has source = true ∧ g.has s = true then match runFuel (dfsStep g.nodesFrom s) k ([source], [], []) with
    | none => none
    | some (some _) => fhTextF k g hg source l acc
    | some none => match hg.node s with
      | none => some (.error .typeError)
      | some (_, none) => some (.error .typeError)
      | some (_, some d) => fhTextF k g hg source l (acc ++ d)
    else none

theorem fhTextF_ok (k : Nat) {g : Graph α V O} {hg : HashG α B} {source : α} (l : List α) : ∀ {acc : List B} {r : Py (List B)},
    fhTextF k g hg source l acc = some r → fhText g hg source l acc = some r := by
  induction l with
  | nil => intro acc r h; exact h
  | cons s l ih =>
    intro acc r h
    unfold fhTextF at h
    split at h
    · rename_i hs
      unfold fhText depthFirstSearch
      simp only [hs.1, hs.2, Bool.not_true, Bool.false_eq_true, if_false]
      cases hk : runFuel (dfsStep g.nodesFrom s) k ([source], [], []) with
      | none => rw [hk] at h; cases h
      | some o =>
        rw [hk] at h
        rw [pyWhile_of_runFuel hk]
        cases o with
        | some p => exact ih h
        | none =>
          dsimp only at h ⊢
          split at h
          · rename_i hn; rw [hn]; exact h
          · rename_i hn; rw [hn]; exact h
          · rename_i hn; rw [hn]; exact ih h
    · cases h

/-- `fhStep` with bounded searches -/
def fhStepF (k : Nat) (H : List B → List B) (str : α → List B) (g : Graph α V O) (s : FhSt α B) : Option (FhSt α B ⊕ Py (HashG α B)) :=
  match s.sources with
  | [] => fhStep H str g s
  | source :: rest => match fhTextF k g s.hg source (g.nodesTo source) (str source) with
    | none => none
    | some (.error e) => some (.inr (.error e))
    | some (.ok t) => match fhStore s.hg source (H t) with
      | .error e => some (.inr (.error e))
      | .ok hg => some (.inl ((g.nodesFrom source).foldl (fhRecv source) ⟨rest, hg, s.visited⟩))

theorem fhStepF_ok (k : Nat) {H : List B → List B} {str : α → List B} {g : Graph α V O} (s : FhSt α B) (r : FhSt α B ⊕ Py (HashG α B))
    (h : fhStepF k H str g s = some r) : fhStep H str g s = some r := by
  unfold fhStepF at h
  cases hs : s.sources with
  | nil => rw [hs] at h; exact h
  | cons source rest =>
    rw [hs] at h
    dsimp only at h
    unfold fhStep
    rw [hs]
    dsimp only
    cases ht : fhTextF k g s.hg source (g.nodesTo source) (str source) with
    | none => rw [ht] at h; cases h
    | some t => rw [ht] at h; rw [fhTextF_ok k _ ht]; exact h

/-- the result of a bounded run, observed through `p` -/
theorem flowHash_eval (k n : Nat) {H : List B → List B} {str : α → List B} {g : Graph α V O} {γ : Type} [DecidableEq γ] (p : Py (HashG α B) → γ) {c : γ}
    (h : (runFuelD (fhStepF k H str g) n ⟨g.nodesInDeg 0, Graph.empty, []⟩).map p = some c) :
    ∃ r, g.flowGraphHash H str = some r ∧ p r = c := by
  cases hk : runFuelD (fhStepF k H str g) n ⟨g.nodesInDeg 0, Graph.empty, []⟩ with
  | none => rw [hk] at h; cases h
  | some r =>
    rw [hk] at h
    exact ⟨r, pyWhileD_of_runFuel' (fhStepF_ok k) hk, by simpa using h⟩

/-- the digests of a result -/
def digests (r : Py (HashG Nat Nat)) : Py (List (Nat × Option (List Nat))) := r.map (fun hg => hg.nodeList.map (fun x => (x, (hg.node x).bind (fun p => p.2))))

/-- the path `1 → 2 → 3` -/
def fhChain : Graph Nat Rat Nat := run [W 1 2 1, W 2 3 1]
/-- `1 → 2`, `1 → 3`, `3 → 2` -/
def fhShort : Graph Nat Rat Nat := run [W 1 2 1, W 1 3 1, W 3 2 1]
/-- two suppliers -/
def fhJoin : Graph Nat Rat Nat := run [W 1 3 1, W 2 3 1]
/-- two suppliers, added in the other order -/
def fhJoin' : Graph Nat Rat Nat := run [W 2 3 1, W 1 3 1]

theorem noPhantom_W (l : List (Nat × Nat × Rat)) : (run (l.map (fun e => W e.1 e.2.1 e.2.2)) : Graph Nat Rat Nat).NoPhantom := by
  apply noPhantom_run
  generalize (empty : Graph Nat Rat Nat) = g
  induction l generalizing g with
  | nil => trivial
  | cons e l ih => exact ⟨id, ih _⟩

/-- the hypotheses are met by a path; its digests -/
example : fhChain.Built ∧ fhChain.NoPhantom ∧ (∀ a b, fhChain.Adj a b → b - 1 = a - 1 + 1) ∧
    (∀ x, fhChain.has x = true → (∀ y, ¬ fhChain.Adj y x) → x - 1 = 0) ∧
    ∃ r, fhChain.flowGraphHash toyH (fun x => [x]) = some r ∧ digests r = .ok [(1, some [1]), (2, some [21]), (3, some [51])] := by
  have hinv : fhChain.Inv := Built.inv ⟨_, rfl⟩
  refine ⟨⟨_, rfl⟩, noPhantom_W [(1, 2, 1), (2, 3, 1)], fun a b h => ?_, fun x hx h => ?_, flowHash_eval 10 10 digests (by decide +kernel)⟩
  · obtain ⟨v, hv⟩ := Option.isSome_iff_exists.1 h
    have := hinv.mem_edgeList.2 hv
    rw [show fhChain.edgeList = [(1, 2, 1), (2, 3, 1)] by decide +kernel] at this
    simp at this; omega
  · have := has_iff.1 hx
    rw [show fhChain.nodeList = [1, 2, 3] by decide +kernel] at this
    simp at this
    rcases this with rfl | rfl | rfl
    · rfl
    · exact absurd (show fhChain.Adj 1 2 by unfold Adj; decide +kernel) (h 1)
    · exact absurd (show fhChain.Adj 2 3 by unfold Adj; decide +kernel) (h 2)

/-- the hypotheses of `C47_changes_propagate` are met by the path `1 → 2 → 3` and the path `1 → 2 → 3 → 4`, for node 3 -/
example : ∃ r r', fhChain.flowGraphHash toyH (fun x => [x]) = some (.ok r) ∧
    (run [W 1 2 1, W 2 3 1, W 3 4 1]).flowGraphHash toyH (fun x => [x]) = some (.ok r') ∧ r.node 3 = r'.node 3 ∧
    (fhChain.nodesTo 3).map (digestOf r) = [[21]] ∧ ((run [W 1 2 1, W 2 3 1, W 3 4 1]).nodesTo 3).map (digestOf r') = [[21]] := by
  obtain ⟨r, h1, h2⟩ := flowHash_eval (H := toyH) (str := fun x => [x]) (g := fhChain) 10 10
    (fun r => match r with | .error _ => none | .ok r => some (r.node 3, (fhChain.nodesTo 3).map (digestOf r)))
    (c := some (some (3, some [51]), [[21]])) (by decide +kernel)
  obtain ⟨r', h1', h2'⟩ := flowHash_eval (H := toyH) (str := fun x => [x]) (g := run [W 1 2 1, W 2 3 1, W 3 4 1]) 10 10
    (fun r => match r with | .error _ => none | .ok r => some (r.node 3, ((run [W 1 2 1, W 2 3 1, W 3 4 1]).nodesTo 3).map (digestOf r)))
    (c := some (some (3, some [51]), [[21]])) (by decide +kernel)
  cases r with
  | error _ => cases h2
  | ok r =>
    cases r' with
    | error _ => cases h2'
    | ok r' =>
      simp only [Option.some.injEq, Prod.mk.injEq] at h2 h2'
      exact ⟨r, r', h1, h1', h2.1.trans h2'.1.symm, h2.2, h2'.2⟩

/-- **C47**, the exception: on a DAG with an edge `a → b` where `b` is closer to the sources than `a` (`n` edges lead from a node without
suppliers to `b`, but at least `n + 1` to `a`), `flow_graph_hash` always raises `TypeError`, whatever the hash function. -/
theorem C47_type_error {H : List B → List B} {str : α → List B} {g : Graph α V O} (hg : g.Built) (hph : g.NoPhantom)
    (hA : Acyclic g.Adj) {a b : α} (hab : g.Adj a b) {n : Nat}
    (hb : ∃ r, g.has r = true ∧ (∀ y, ¬ g.Adj y r) ∧ Steps g.Adj n r b)
    (ha : ∀ r m, g.has r = true → (∀ y, ¬ g.Adj y r) → Steps g.Adj m r a → n < m) :
    g.flowGraphHash H str = some (.error .typeError) := by
  obtain ⟨lev, hL⟩ := exists_level hg.inv hA
  obtain ⟨r, h1, h2⟩ := flowGraphHash_levels (H := H) (str := str) hg.inv hph hA hL
  obtain ⟨r', h3, h4⟩ := C47_flow_graph_hash_partial (H := H) (str := str) hg hph hA
  rw [h1] at h3; cases h3
  rcases h4 with ⟨r', rfl, _⟩ | rfl
  · have h5 := h2 ⟨_, rfl⟩ a b hab
    have h6 := hL.least b n (has_iff.2 (hg.inv.finite _ _ hab).2) hb
    obtain ⟨q, q1, q2, q3⟩ := hL.mem a (has_iff.2 (hg.inv.finite _ _ hab).1)
    have := ha q _ q1 q2 q3
    omega
  · exact h1

/-- **C47** fails: on the DAG `1 → 2`, `1 → 3`, `3 → 2` node 2 is taken before its supplier 3 is hashed, and `TypeError` is raised,
whatever the hash function. -/
theorem C47_type_error_counterexample (H : List Nat → List Nat) (str : Nat → List Nat) :
    fhShort.Built ∧ fhShort.NoPhantom ∧ Acyclic fhShort.Adj ∧ fhShort.flowGraphHash H str = some (.error .typeError) := by
  have hA : Acyclic fhShort.Adj := by
    refine acyclic_of_rank (fun x => if x = 1 then 0 else if x = 3 then 1 else 2) (fun a b h => ?_)
    obtain ⟨v, hv⟩ := Option.isSome_iff_exists.1 h
    have := (Built.inv ⟨_, rfl⟩ : fhShort.Inv).mem_edgeList.2 hv
    rw [show fhShort.edgeList = [(1, 2, 1), (1, 3, 1), (3, 2, 1)] by decide +kernel] at this
    simp at this
    rcases this with ⟨rfl, rfl, _⟩ | ⟨rfl, rfl, _⟩ | ⟨rfl, rfl, _⟩ <;> decide
  refine ⟨⟨_, rfl⟩, noPhantom_W [(1, 2, 1), (1, 3, 1), (3, 2, 1)], hA, ?_⟩
  obtain ⟨r, h1, h2⟩ := flowHash_eval (H := H) (str := str) (g := fhShort) 10 10 (fun r => match r with | .error e => some e | .ok _ => none)
    (c := some .typeError) (by
      rfl)
  rw [h1]
  cases r with
  | ok _ => cases h2
  | error e => simp at h2; rw [h2]

theorem same_of_lists {g g' : Graph α V O} (hg : g.Built) (hg' : g'.Built) (hn : ∀ x, x ∈ g.nodeList ↔ x ∈ g'.nodeList)
    (he : ∀ e, e ∈ g.edgeList ↔ e ∈ g'.edgeList) : (∀ x, g.has x = g'.has x) ∧ ∀ a b, g.edge a b = g'.edge a b := by
  refine ⟨fun x => by rw [Bool.eq_iff_iff, has_iff, has_iff, hn], fun a b => Option.ext (fun v => ?_)⟩
  rw [← hg.inv.mem_edgeList, ← hg'.inv.mem_edgeList, he]

/-- the order of the edges does not matter for `1 → 2`, `1 → 3`, `3 → 4`, `4 → 2`: node 2 is closer to the source than its supplier 4 -/
def fhLong : Graph Nat Rat Nat := run [W 1 3 1, W 3 4 1, W 4 2 1, W 1 2 1]

theorem fhLong_adj {a b : Nat} : fhLong.Adj a b ↔ (a, b) ∈ [(1, 3), (1, 2), (3, 4), (4, 2)] := by
  have hi : fhLong.Inv := Graph.Built.inv (⟨_, rfl⟩ : fhLong.Built)
  have he : fhLong.edgeList = [(1, 3, 1), (1, 2, 1), (3, 4, 1), (4, 2, 1)] := by decide +kernel
  constructor
  · intro h
    obtain ⟨v, hv⟩ := Option.isSome_iff_exists.1 h
    have := hi.mem_edgeList.2 hv
    rw [he] at this
    simp at this ⊢
    grind
  · intro h
    have : ∃ v, (a, b, v) ∈ fhLong.edgeList := by
      rw [he]
      simp at h ⊢
      grind
    obtain ⟨v, hv⟩ := this
    exact Option.isSome_iff_exists.2 ⟨v, hi.mem_edgeList.1 hv⟩

/-- the hypotheses of `C47_type_error` are met by `fhLong`, the edge `4 → 2` and `n = 1` -/
example : fhLong.Built ∧ fhLong.NoPhantom ∧ Acyclic fhLong.Adj := by
  refine ⟨⟨_, rfl⟩, noPhantom_W [(1, 3, 1), (3, 4, 1), (4, 2, 1), (1, 2, 1)],
    acyclic_of_rank (fun x => if x = 1 then 0 else if x = 3 then 1 else if x = 4 then 2 else 3) (fun a b h => ?_)⟩
  have := fhLong_adj.1 h
  simp at this
  rcases this with ⟨rfl, rfl⟩ | ⟨rfl, rfl⟩ | ⟨rfl, rfl⟩ | ⟨rfl, rfl⟩ <;> decide

example : fhLong.Adj 4 2 ∧ (∃ r, fhLong.has r = true ∧ (∀ y, ¬ fhLong.Adj y r) ∧ Steps fhLong.Adj 1 r 2) ∧
    (∀ r m, fhLong.has r = true → (∀ y, ¬ fhLong.Adj y r) → Steps fhLong.Adj m r 4 → 1 < m) := by
  refine ⟨fhLong_adj.2 (by simp), ⟨1, by decide +kernel, fun y hy => by simpa using fhLong_adj.1 hy, .succ (.zero 1) (fhLong_adj.2 (by simp))⟩, ?_⟩
  intro r m _ hr hs
  cases hs with
  | zero => exact absurd (fhLong_adj.2 (by simp)) (hr 3)
  | succ h1 h2 =>
    cases h1 with
    | zero =>
      have := fhLong_adj.1 h2
      simp at this
      subst this
      exact absurd (fhLong_adj.2 (by simp)) (hr 1)
    | succ _ _ => omega

/-- a loop behind a source: `1 → 2 → 3 → 2` -/
def fhCyc : Graph Nat Rat Nat := run [W 1 2 1, W 2 3 1, W 3 2 1]

theorem fhCyc_adj {a b : Nat} : fhCyc.Adj a b ↔ (a, b) ∈ [(1, 2), (2, 3), (3, 2)] := by
  have hi : fhCyc.Inv := Graph.Built.inv (⟨_, rfl⟩ : fhCyc.Built)
  have he : fhCyc.edgeList = [(1, 2, 1), (2, 3, 1), (3, 2, 1)] := by decide +kernel
  constructor
  · intro h
    obtain ⟨v, hv⟩ := Option.isSome_iff_exists.1 h
    have := hi.mem_edgeList.2 hv
    rw [he] at this
    simp at this ⊢
    grind
  · intro h
    have : ∃ v, (a, b, v) ∈ fhCyc.edgeList := by
      rw [he]
      simp at h ⊢
      grind
    obtain ⟨v, hv⟩ := this
    exact Option.isSome_iff_exists.2 ⟨v, hi.mem_edgeList.1 hv⟩

/-- the hypotheses of `C47_any_graph_partial` are met by a graph with a loop; its digests do not contain the hashes of the loop's suppliers -/
example : fhCyc.Built ∧ fhCyc.NoPhantom ∧
    (∀ x y, fhCyc.Adj y x → (decide (y ≠ 1) = true ↔ Reach fhCyc.Adj x y)) ∧
    ∃ r, fhCyc.flowGraphHash id (fun x => [x]) = some r ∧ digests r = .ok [(1, some [1]), (2, some [2, 1]), (3, some [3])] := by
  have key : ∀ {x y : Nat}, Reach fhCyc.Adj x y → x ≠ 1 → y ≠ 1 := by
    intro x y h hx
    obtain ⟨n, h⟩ := h
    induction h with
    | zero => exact hx
    | succ h1 h2 ih =>
      have := fhCyc_adj.1 h2
      simp at this; omega
  refine ⟨⟨_, rfl⟩, noPhantom_W [(1, 2, 1), (2, 3, 1), (3, 2, 1)], fun x y h => ?_, flowHash_eval 10 10 digests (by decide +kernel)⟩
  have h := fhCyc_adj.1 h
  simp at h
  rcases h with ⟨rfl, rfl⟩ | ⟨rfl, rfl⟩ | ⟨rfl, rfl⟩
  · simp
    intro h
    exact key h (by decide) rfl
  · simp
    exact Reach.tail (.refl _) (fhCyc_adj.2 (by simp))
  · simp
    exact Reach.tail (.refl _) (fhCyc_adj.2 (by simp))

/-- **C47**: the digests depend on the order in which suppliers were added, also with a hash without any collision (here: the identity).
Two graphs with the same nodes and edges. -/
theorem C47_order_counterexample :
    (∀ x, fhJoin.has x = fhJoin'.has x) ∧ (∀ a b, fhJoin.edge a b = fhJoin'.edge a b) ∧
    ∃ r r', fhJoin.flowGraphHash id (fun x => [x]) = some (.ok r) ∧ fhJoin'.flowGraphHash id (fun x => [x]) = some (.ok r') ∧
      r.node 3 ≠ r'.node 3 := by
  have h := same_of_lists (g := fhJoin) (g' := fhJoin') ⟨_, rfl⟩ ⟨_, rfl⟩
    (fun x => by rw [show fhJoin.nodeList = [1, 3, 2] by decide +kernel, show fhJoin'.nodeList = [2, 3, 1] by decide +kernel]; simp; omega)
    (fun e => by rw [show fhJoin.edgeList = [(1, 3, 1), (2, 3, 1)] by decide +kernel, show fhJoin'.edgeList = [(2, 3, 1), (1, 3, 1)] by decide +kernel]; simp; grind)
  obtain ⟨r, h1, h2⟩ := flowHash_eval (H := id) (str := fun x => [x]) (g := fhJoin) 10 10
    (fun r => match r with | .error _ => none | .ok r => some (r.node 3)) (c := some (some (3, some [3, 1, 2]))) (by decide +kernel)
  obtain ⟨r', h1', h2'⟩ := flowHash_eval (H := id) (str := fun x => [x]) (g := fhJoin') 10 10
    (fun r => match r with | .error _ => none | .ok r => some (r.node 3)) (c := some (some (3, some [3, 2, 1]))) (by decide +kernel)
  cases r with
  | error _ => cases h2
  | ok r =>
    cases r' with
    | error _ => cases h2'
    | ok r' =>
      simp only [Option.some.injEq] at h2 h2'
      exact ⟨h.1, h.2, r, r', h1, h1', by rw [h2, h2']; decide⟩

/-- the graph of `fhShort`, with the edges added in another order -/
def fhShort' : Graph Nat Rat Nat := run [W 1 3 1, W 1 2 1, W 3 2 1]

/-- **C47**: whether `flow_graph_hash` raises depends on the order in which edges were added, if an edge joins two nodes that are equally far from
the sources: of two graphs with the same nodes and edges one raises `TypeError`, the other is hashed. -/
theorem C47_raise_order_counterexample :
    (∀ x, fhShort.has x = fhShort'.has x) ∧ (∀ a b, fhShort.edge a b = fhShort'.edge a b) ∧
    fhShort.flowGraphHash id (fun x => [x]) = some (.error .typeError) ∧
    ∃ r, fhShort'.flowGraphHash id (fun x => [x]) = some (.ok r) ∧ r.node 2 = some (2, some [2, 1, 3, 1]) := by
  have h := same_of_lists (g := fhShort) (g' := fhShort') ⟨_, rfl⟩ ⟨_, rfl⟩
    (fun x => by rw [show fhShort.nodeList = [1, 2, 3] by decide +kernel, show fhShort'.nodeList = [1, 3, 2] by decide +kernel]; simp; omega)
    (fun e => by rw [show fhShort.edgeList = [(1, 2, 1), (1, 3, 1), (3, 2, 1)] by decide +kernel,
      show fhShort'.edgeList = [(1, 3, 1), (1, 2, 1), (3, 2, 1)] by decide +kernel]; simp; grind)
  refine ⟨h.1, h.2, (C47_type_error_counterexample id (fun x => [x])).2.2.2, ?_⟩
  obtain ⟨r, h1, h2⟩ := flowHash_eval (H := id) (str := fun x => [x]) (g := fhShort') 10 10
    (fun r => match r with | .error _ => none | .ok r => some (r.node 2)) (c := some (some (2, some [2, 1, 3, 1]))) (by decide +kernel)
  cases r with
  | error _ => cases h2
  | ok r => simp only [Option.some.injEq] at h2; exact ⟨r, h1, h2⟩

end GT
