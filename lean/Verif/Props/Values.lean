import Verif.Graph.MapV
import Verif.Sp.NoneValue
import Verif.Props.Search
import Verif.Props.Sp
/-
Property theorems C127 (the searches do not look at edge values) and C128 (edge values that are no numbers).
-/
namespace GT
open Graph
variable {α V W O : Type} [DecidableEq α]

/-- the operation without the value it carries: only whether it is a container -/
def Op.shape : Op α V O → Op α Unit O := Op.mapV (fun _ => ())

/-- **C127**: two graphs with the same history up to the edge values (which may be of different types) get the same answers, in the same order. -/
theorem C127_values_do_not_matter {ops : List (Op α V O)} {ops' : List (Op α W O)} (h : ops.map Op.shape = ops'.map Op.shape) :
    let g := run ops
    let g' := run ops'
    (∀ n, g.has n = g'.has n ∧ g.node n = g'.node n ∧ (g.inDegree n).1 = (g'.inDegree n).1 ∧ (g.outDegree n).1 = (g'.outDegree n).1) ∧
    (∀ a b i o, g.nodesQ a b i o = g'.nodesQ a b i o) ∧
    g.edgeList.map (fun e => (e.1, e.2.1)) = g'.edgeList.map (fun e => (e.1, e.2.1)) ∧
    (∀ a b, g.isConnected a b = g'.isConnected a b) ∧
    (∀ a b, g.breadthFirstSearch a b = g'.breadthFirstSearch a b) ∧
    (∀ a e r, g.breadthFirstWalk a e r = g'.breadthFirstWalk a e r) ∧
    (∀ a b, g.degreeOfSeparation a b = g'.degreeOfSeparation a b) ∧
    (∀ a b, g.depthFirstSearch a b = g'.depthFirstSearch a b) ∧
    (∀ a c, g.depthScan a c = g'.depthScan a c) ∧
    (∀ ord a k, g.networkSize ord a k = g'.networkSize ord a k) ∧
    (∀ pop, g.components pop = g'.components pop) ∧
    (∀ a b, g.allSimplePaths a b = g'.allSimplePaths a b) ∧
    (∀ a b, g.allPaths a b = g'.allPaths a b) ∧
    (∀ a, g.sources a = g'.sources a) ∧
    (∀ srt, g.topologicalSort srt = g'.topologicalSort srt) ∧
    (∀ srt, g.hasCycles srt = g'.hasCycles srt) ∧
    (∀ ord, g.phaseLines ord = g'.phaseLines ord) ∧
    (∀ num srt, g.criticalPath num srt = g'.criticalPath num srt) ∧
    (∀ pop n, g.isPartite pop n = g'.isPartite pop n) := by
  intro g g'
  have hm : g.mapV (fun _ => ()) = g'.mapV (fun _ => ()) := by
    rw [mapV_run, mapV_run]; exact congrArg run h
  have hf : g.nodesFrom = g'.nodesFrom := by rw [← mapV_nodesFrom (fun _ => ()) g, hm, mapV_nodesFrom]
  have ht : g.nodesTo = g'.nodesTo := by rw [← mapV_nodesTo (fun _ => ()) g, hm, mapV_nodesTo]
  have hh : g.has = g'.has := congrArg Graph.has hm
  have hl : g.nodeList = g'.nodeList := congrArg Graph.nodeList hm
  have hi : g.nodesInDeg = g'.nodesInDeg := congrArg Graph.nodesInDeg hm
  have ho : g.nodesOutDeg = g'.nodesOutDeg := congrArg Graph.nodesOutDeg hm
  have hc : g.isConnected = g'.isConnected := by rw [← mapV_isConnected (fun _ => ()) g, hm, mapV_isConnected]
  have hbfs : ∀ a b, g.breadthFirstSearch a b = g'.breadthFirstSearch a b := by
    intro a b; unfold breadthFirstSearch; rw [hh, hf]
  refine ⟨fun n => ⟨congrFun hh n, ?_, ?_, ?_⟩, ?_, ?_, fun a b => by rw [hc], hbfs, ?_, ?_, ?_, ?_, ?_, ?_, ?_, ?_, ?_, ?_, ?_, ?_, ?_, ?_⟩
  · exact congrFun (congrArg Graph.node hm) n
  · exact congrArg (fun x => (Graph.inDegree x n).1) hm
  · exact congrArg (fun x => (Graph.outDegree x n).1) hm
  · intro a b i o; unfold nodesQ; rw [hl, hf, ht, hi, ho]
  · have := congrArg Graph.edgeList hm
    rw [mapV_edgeList, mapV_edgeList] at this
    have := congrArg (List.map (fun e : α × α × Unit => (e.1, e.2.1))) this
    simpa [List.map_map, Function.comp_def] using this
  · intro a e r; unfold breadthFirstWalk; rw [hh, hf, ht]
  · intro a b; unfold degreeOfSeparation; rw [hh, hl, hbfs]
  · intro a b; unfold depthFirstSearch; rw [hh, hf]
  · intro a c; unfold depthScan; rw [hh, hf]
  · intro ord a k; unfold networkSize; rw [hh, hf]
  · intro pop; unfold components; rw [hf, ht, hl]
  · intro a b; unfold allSimplePaths
    have : g.edgeTargets = g'.edgeTargets := by funext n; rw [edgeTargets_eq, edgeTargets_eq, hf]
    rw [hh, hc, this]
  · intro a b; unfold allPaths; rw [hh, hc, hf]
  · intro a; unfold sources; rw [hh, ht]
  · intro srt; rw [← mapV_topologicalSort (fun _ => ()) g, hm, mapV_topologicalSort]
  · intro srt; rw [← mapV_hasCycles (fun _ => ()) g, hm, mapV_hasCycles]
  · intro ord; rw [← mapV_phaseLines (fun _ => ()) g, hm, mapV_phaseLines]
  · intro num srt; rw [← mapV_criticalPath (fun _ => ()) g, hm, mapV_criticalPath]
  · intro pop n; unfold isPartite
    have : g.bothNbr = g'.bothNbr := by funext x; unfold bothNbr; rw [hf, ht]
    rw [hl, this]

/-- two histories that differ in the values only: numbers and `None` -/
example : ([.addEdge 1 2 (.scalar (5 : Rat)) true, .delNode 1, .addEdge 2 3 .container false, .addEdge 2 4 (.scalar 0) false] : List (Op Nat Rat Nat)).map Op.shape =
    ([.addEdge 1 2 (.scalar none) true, .delNode 1, .addEdge 2 3 .container false, .addEdge 2 4 (.scalar (some 7)) false] : List (Op Nat (Option Nat) Nat)).map Op.shape := rfl

/-! ### values that are no numbers -/

/-- the numbers among the values -/
def numEdge (g : Graph α (Option Rat) O) (a b : α) : Option Rat := (g.edge a b).join

theorem consec_avoid {R : α → α → Prop} {av : List α} : ∀ {p : List α}, Consec R p → (∀ x ∈ p, x ∉ av) → Consec (fun a b => b ∉ av ∧ R a b) p
  | [], _, _ => trivial
  | [_], _, _ => trivial
  | a :: b :: l, h, hp => ⟨⟨hp b (by simp), h.1⟩, consec_avoid (p := b :: l) h.2 (fun x hx => hp x (List.mem_cons_of_mem _ hx))⟩

theorem consecV_mono {R S : α → α → Prop} (h : ∀ a b, R a b → S a b) : ∀ {p : List α}, Consec R p → Consec S p
  | [], _ => trivial
  | [_], _ => trivial
  | _ :: b :: l, hp => ⟨h _ _ hp.1, consecV_mono h (p := b :: l) hp.2⟩

theorem consecV_all {R : α → α → Prop} {P : α → Prop} (h : ∀ a b, R a b → P a) {x : α} (hx : P x) : ∀ {p : List α}, Consec R p → p.getLast? = some x → ∀ z ∈ p, P z
  | [], _, _ => by simp
  | [a], _, hl => by simp at hl; subst hl; simpa using hx
  | a :: b :: l, hp, hl => by
    intro z hz
    rcases List.mem_cons.1 hz with rfl | hz
    · exact h _ _ hp.1
    · exact consecV_all h hx (p := b :: l) hp.2 (by simpa using hl) z hz

theorem shortestPathV_run {g : Graph α (Option Rat) O} {start fin : α} {avoids : List α} (hs : g.has start = true) (hf : g.has fin = true) :
    g.shortestPathV start fin avoids = pyWhile (dijStepV g.outNbr fin) ⟨[⟨0, 0, start, []⟩], Dict.empty.set start 0, avoids, 1⟩ := by
  unfold shortestPathV; rw [hs, hf]; rfl

theorem numEdge_nbr {g : Graph α (Option Rat) O} (hI : g.Inv) (x y : α) (c : Rat) : (y, c) ∈ numNbr (g.outNbr x) ↔ numEdge g x y = some c := by
  rw [mem_numNbr, hI.mem_outNbr]
  unfold numEdge
  cases g.edge x y with
  | none => simp
  | some v => simp

/-- **C128**: if `shortest_path` returns although some values are no numbers (`None`), it returns a walk along edges whose values are numbers and that avoids
`avoids`, together with its total; with non-negative numbers no such walk is shorter. It returns `(inf, [])` only if not even the edges without a number lead to the end. -/
theorem C128_shortest_path_returns {g : Graph α (Option Rat) O} (hg : g.Built) {start fin : α} {avoids : List α} {d : Ext} {p : List α}
    (h : g.shortestPathV start fin avoids = some (.ok (d, p))) :
    (p ≠ [] → ∃ c, d = .fin c ∧ AvoidWalk (numEdge g) avoids start fin p c ∧
      (NonNeg (numEdge g) → ∀ q c', AvoidWalk (numEdge g) avoids start fin q c' → c ≤ c')) ∧
    (p = [] → d = .inf ∧ ¬ ∃ q, WalkFT (fun a b => (g.edge a b).isSome = true) start fin q ∧ ∀ x ∈ q, x ∉ avoids) := by
  have hI := hg.inv
  by_cases hs : g.has start = true
  case neg => unfold shortestPathV at h; simp [hs] at h
  by_cases hf : g.has fin = true
  case neg => unfold shortestPathV at h; simp [hs, hf] at h
  rw [shortestPathV_run hs hf] at h
  have hok := dijV_ok h
  have hU : ∀ x y c, numEdge g x y = some c → x ∈ g.nodeList ∧ y ∈ g.nodeList := by
    intro x y c hc
    unfold numEdge at hc
    cases he : g.edge x y with
    | none => rw [he] at hc; cases hc
    | some v => exact hI.edge_mem he
  obtain ⟨r, h1, h2⟩ := dij_any (nbr := fun x => numNbr (g.outNbr x)) (w := numEdge g) (numEdge_nbr hI) hU (fin := fin) (has_iff.1 hs) avoids
  rw [hok] at h1
  cases h1
  constructor
  · intro hp
    rcases h2 with ⟨c, h3, h4⟩ | ⟨h3, _⟩
    · refine ⟨c, h3, h4, fun hw q c' hq => ?_⟩
      obtain ⟨r, h5, h6⟩ := dij_spec (nbr := fun x => numNbr (g.outNbr x)) (w := numEdge g) (numEdge_nbr hI) hw hU (fin := fin) (has_iff.1 hs) avoids
      rw [hok] at h5
      cases h5
      rcases h6 with ⟨c2, h7, _, h8⟩ | ⟨h7, _⟩
      · have : d = .fin c2 := h7
        rw [show d = .fin c from h3] at this
        cases this
        exact h8 q c' hq
      · cases h7; exact absurd rfl hp
    · cases h3; exact absurd rfl hp
  · intro hp
    subst hp
    rcases h2 with ⟨c, _, h4⟩ | ⟨h3, _⟩
    · exact absurd rfl h4.1.ne_nil
    · cases h3
      refine ⟨rfl, ?_⟩
      rintro ⟨q, hq, hav⟩
      have hsq : start ∉ avoids := hav _ (List.mem_of_head? hq.2.1)
      have hfq : fin ∉ avoids := hav _ (List.mem_of_getLast? hq.2.2)
      refine dijV_inf h hsq hfq (reach_iff_walk.2 ⟨q, ?_, hq.2⟩)
      have := consec_avoid hq.1 hav
      refine consecV_mono ?_ this
      rintro a b ⟨h5, h6⟩
      obtain ⟨v, hv⟩ := Option.isSome_iff_exists.1 h6
      exact ⟨h5, v, hI.mem_outNbr.2 hv⟩

/-- **C128**: the call always ends; the only error besides the `ValueError` for a node that is not there is a `TypeError`, and then an edge whose value is no number leaves
a node `x ≠ end` that is reached along numbers (and `avoids` blocks neither of its ends). -/
theorem C128_shortest_path_ends {g : Graph α (Option Rat) O} (hg : g.Built) (start fin : α) (avoids : List α) :
    ∃ r, g.shortestPathV start fin avoids = some r ∧
      (r = .error .valueError ↔ g.has start = false ∨ g.has fin = false) ∧
      ∀ er, r = .error er → er ≠ .valueError → er = .typeError ∧
        ∃ x y q, WalkFT (fun a b => (numEdge g a b).isSome = true) start x q ∧ (∀ z ∈ q, z ∉ avoids ∧ z ≠ fin) ∧ y ∉ avoids ∧ y ≠ x ∧ g.edge x y = some none := by
  have hI := hg.inv
  by_cases hs : g.has start = true
  case neg => exact ⟨.error .valueError, by unfold shortestPathV; simp [hs], by simp [hs], by rintro er h1 h2; cases h1; exact absurd rfl h2⟩
  by_cases hf : g.has fin = true
  case neg => exact ⟨.error .valueError, by unfold shortestPathV; simp [hs, hf], by simp [hf], by rintro er h1 h2; cases h1; exact absurd rfl h2⟩
  rw [shortestPathV_run hs hf]
  obtain ⟨r, hr⟩ := dijV_ends (nbr := g.outNbr) (U := g.nodeList) (fun x y c hm => (hI.edge_mem (hI.mem_outNbr.1 hm)).2) fin (has_iff.1 hs) avoids
  refine ⟨r, hr, ⟨fun he => ?_, fun h => by simp [hs, hf] at h⟩, fun er he _ => ?_⟩
  · subst he; exact absurd (dijV_error hr).1 (by simp)
  · subst he
    obtain ⟨h1, x, y, h2, h3, h4, h5, h6, h7⟩ := dijV_error hr
    obtain ⟨q, hq⟩ := reach_iff_walk.1 h2
    refine ⟨h1, x, y, q, ⟨consecV_mono ?_ hq.1, hq.2⟩, ?_, h6, h7, hI.mem_outNbr.1 h5⟩
    · rintro a b ⟨_, _, d, hd⟩
      have := hI.mem_outNbr.1 hd
      unfold numEdge; rw [this]; rfl
    · exact consecV_all (P := fun z => z ∉ avoids ∧ z ≠ fin) (fun a b hab => ⟨hab.1, hab.2.1⟩) ⟨h3, h4⟩ hq.1 hq.2.2

/-- **C128**: if the end can be reached around `avoids`, but not along numbers, the call raises a `TypeError`. -/
theorem C128_shortest_path_type_error {g : Graph α (Option Rat) O} (hg : g.Built) {start fin : α} {avoids : List α} (hs : g.has start = true) (hf : g.has fin = true)
    (h1 : ∃ q, WalkFT (fun a b => (g.edge a b).isSome = true) start fin q ∧ ∀ x ∈ q, x ∉ avoids)
    (h2 : ¬ ∃ q c, AvoidWalk (numEdge g) avoids start fin q c) : g.shortestPathV start fin avoids = some (.error .typeError) := by
  obtain ⟨r, hr, hv, he⟩ := C128_shortest_path_ends hg start fin avoids
  cases r with
  | error er =>
    by_cases hve : er = .valueError
    · subst hve
      rcases hv.1 rfl with h | h
      · rw [hs] at h; cases h
      · rw [hf] at h; cases h
    · rw [hr, (he er rfl hve).1]
  | ok x =>
    obtain ⟨d, p⟩ := x
    obtain ⟨k1, k2⟩ := C128_shortest_path_returns hg hr
    by_cases hp : p = []
    · exact absurd h1 (k2 hp).2
    · obtain ⟨c, _, h3, _⟩ := k1 hp
      exact absurd ⟨p, c, h3⟩ h2

/-- **C128**: `has_path` answers "no" on an edge whose value is `None`; on every other path it says whether all edges are there. The empty path raises an `IndexError`. -/
theorem C128_has_path_partial (g : Graph α (Option V) O) (p : List α) :
    (p ≠ [] → ∃ r, g.hasPathV p = .ok r ∧ (r = true ↔ Consec (fun a b => ∃ v, g.edge a b = some (some v)) p)) ∧
    g.hasPathV [] = .error .indexError := hasPathV_spec g p

theorem dijRelaxV_num (cost : Rat) (path visited : List α) (l : List (α × Rat)) : ∀ s,
    dijRelaxV cost path visited (l.map (fun p => (p.1, some p.2))) s = .ok (dijRelax cost path visited l s) := by
  induction l with
  | nil => intro s; rfl
  | cons x l ih =>
    rintro ⟨q, mins, i⟩
    obtain ⟨v2, d⟩ := x
    rw [List.map_cons]
    unfold dijRelaxV dijRelax
    dsimp only
    by_cases hv : v2 ∈ visited
    · rw [if_pos hv, if_pos hv]; exact ih _
    · rw [if_neg hv, if_neg hv]
      cases hm : mins.get? v2 with
      | none => exact ih _
      | some prev =>
        dsimp only
        by_cases hlt : cost + d < prev
        · rw [if_pos hlt, if_pos hlt]; exact ih _
        · rw [if_neg hlt, if_neg hlt]; exact ih _

theorem mapV_outNbr (f : V → W) (g : Graph α V O) (n : α) : (g.mapV f).outNbr n = (g.outNbr n).map (fun p => (p.1, f p.2)) := by
  unfold outNbr edgesFrom mapV
  dsimp only
  rw [Dict.mapV_get]
  cases g.edges.get? n with
  | none => rfl
  | some d => simp [Dict.mapV, Function.comp_def]

/-- **C128**: on a graph all of whose values are numbers the call is the one of the other properties. -/
theorem C128_shortest_path_numbers (g : Graph α Rat O) (start fin : α) (avoids : List α) :
    (g.mapV some).shortestPathV start fin avoids = g.shortestPath start fin avoids := by
  unfold shortestPathV shortestPath
  rw [mapV_has, mapV_has]
  split
  · rfl
  · split
    · rfl
    · have : dijStepV (g.mapV some).outNbr fin = fun s => (match dijStep g.outNbr fin s with | .inl s => .inl s | .inr r => .inr (.ok r)) := by
        funext s
        unfold dijStepV dijStep
        cases hp : popMin s.q with
        | none => rfl
        | some x =>
          obtain ⟨e, q⟩ := x
          dsimp only
          split
          · rfl
          · split
            · rfl
            · rw [mapV_outNbr, dijRelaxV_num]
      rw [this]
      refine (pyWhile_map_eq (step := dijStep g.outNbr fin) (step' := fun s => (match dijStep g.outNbr fin s with | .inl s => .inl s | .inr r => .inr (.ok r))) id
        (Except.ok (ε := Err)) (fun s => ?_) _).trans ?_
      · show (match dijStep g.outNbr fin s with | .inl s => _ | .inr r => _) = _
        cases dijStep g.outNbr fin s <;> rfl
      cases pyWhile (dijStep g.outNbr fin) ⟨[⟨0, 0, start, []⟩], Dict.empty.set start 0, avoids, 1⟩ <;> rfl

/-- `g = Graph(); g.add_edge(1, 2, None); g.add_edge(1, 3, 4); g.add_edge(3, 2, 5); g.add_edge(4, 5, None); g.add_edge(5, 1, 0)` -/
def mixed : Graph Nat (Option Rat) Nat := run [.addEdge 1 2 (.scalar none) false, .addEdge 1 3 (.scalar (some 4)) false, .addEdge 3 2 (.scalar (some 5)) false,
  .addEdge 4 5 (.scalar none) false, .addEdge 5 1 (.scalar (some 0)) false]

/-- `has_path` says that there is no path along an edge whose value is `None`, although `edges(path=[1, 2])` and `is_connected(1, 2)` find it. -/
theorem C128_has_path_counterexample : mixed.hasPathV [1, 2] = .ok false ∧ mixed.edgesPath [1, 2] = .ok [(1, 2, none)] ∧ mixed.isConnected 1 2 = some true ∧
    mixed.hasPathV [1, 3, 2] = .ok true := by
  refine ⟨rfl, rfl, ?_, rfl⟩
  exact pyWhile_of_runFuel (n := 3) (by decide +kernel)

/-- the hypotheses are met: from 1 to 2 there is a way along numbers, but an edge without a number is met first: `TypeError`; with 2 avoided there is nothing to be found;
from 5 to 3 the end is found, and popped, only after the edge `1 → 2` without a number has been met: `TypeError` again, unless 2 is avoided; from 3 the search never
meets such an edge -/
example : mixed.shortestPathV 1 2 = some (.error .typeError) ∧ mixed.shortestPathV 1 2 [2] = some (.ok (.inf, [])) ∧ mixed.shortestPathV 5 3 = some (.error .typeError) ∧
    mixed.shortestPathV 5 3 [2] = some (.ok (.fin 4, [5, 1, 3])) ∧ mixed.shortestPathV 3 2 = some (.ok (.fin 5, [3, 2])) ∧ mixed.shortestPathV 3 1 = some (.ok (.inf, [])) ∧
    mixed.shortestPathV 5 9 = some (.error .valueError) := by
  refine ⟨?_, ?_, ?_, ?_, ?_, ?_, rfl⟩ <;> exact pyWhile_of_runFuel (n := 9) (by decide +kernel)

/-- and `C128_shortest_path_type_error` applies from 4 to 3: the only way leads along `4 → 5` -/
example : mixed.shortestPathV 4 3 = some (.error .typeError) := by
  have hb : mixed.Built := ⟨_, rfl⟩
  refine C128_shortest_path_type_error hb rfl rfl ⟨[4, 5, 1, 3], ⟨⟨rfl, rfl, rfl, trivial⟩, rfl, rfl⟩, by simp⟩ ?_
  rintro ⟨q, c, h, _⟩
  rcases h.inv with ⟨_, h2, _⟩ | ⟨b, q', c, d', _, h2, _, _⟩
  · exact absurd h2 (by decide)
  · have h3 : (b, some c) ∈ mixed.outNbr 4 := by
      rw [hb.inv.mem_outNbr]
      unfold numEdge at h2
      cases he : mixed.edge 4 b with
      | none => rw [he] at h2; cases h2
      | some v => rw [he] at h2; simp at h2; rw [h2]
    have h4 : mixed.outNbr 4 = [(5, none)] := by decide +kernel
    rw [h4] at h3
    simp at h3

end GT
