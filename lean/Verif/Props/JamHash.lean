import Verif.Other.JamHashProof
import Verif.Spec.PyHash
import Verif.Props.Jam
/-
C112: the jam solver compares states by their hashes.
-/
namespace GT
open Graph
variable {ι α O : Type} [DecidableEq ι] [DecidableEq α]

/-- the placement of the loads `raw` on nodes of the network -/
def PlacedOn (g : Graph α Rat O) (raw : List (RawLoad ι α)) (p : Placement ι α) : Prop :=
  p.map Prod.fst = raw.map RawLoad.id ∧ ∀ x ∈ p, g.has x.2 = true

/-- no two of these placements have the same hash -/
def HashesApart (hash : Placement ι α → Int) (g : Graph α Rat O) (raw : List (RawLoad ι α)) : Prop :=
  ∀ p q, PlacedOn g raw p → PlacedOn g raw q → hash p = hash q → p = q

/-! ### no collision -/

theorem repOf_self {hash : Placement ι α → Int} {U : List (Placement ι α)} (hinj : ∀ q ∈ U, ∀ p ∈ U, hash q = hash p → q = p)
    {p : Placement ι α} (hp : p ∈ U) : repOf hash U p = p := by
  unfold repOf
  cases hf : U.find? (fun q => decide (hash q = hash p)) with
  | none => rfl
  | some q =>
    have h1 := List.find?_some hf
    have h2 := List.mem_of_find?_eq_some hf
    exact hinj q h2 p hp (of_decide_eq_true h1)

theorem universe_inU {c : JamCfg ι α O} {s : Placement ι α} (h : s ∈ c.universe) : c.InU s := by
  unfold JamCfg.universe at h
  obtain ⟨combo, h1, rfl⟩ := List.mem_map.1 h
  have hlen := cartesian_length _ _ h1
  rw [List.length_map] at hlen
  refine ⟨?_, ?_⟩
  · rw [List.map_fst_zip (by rw [List.length_map, hlen]; exact Nat.le_refl _)]
  · rintro ⟨k, x⟩ hx
    have hx := (List.of_mem_zip hx).2
    have : ∀ (L : List (Load ι α)) combo, combo ∈ cartesian (L.map (fun _ => c.graph.nodeList)) → ∀ x ∈ combo, x ∈ c.graph.nodeList := by
      intro L
      induction L with
      | nil => intro combo h x hx; simp [cartesian] at h; subst h; cases hx
      | cons l L ih =>
        intro combo h x hx
        simp only [List.map_cons, cartesian, List.mem_flatMap, List.mem_map] at h
        obtain ⟨y, hy, r, hr, rfl⟩ := h
        rcases List.mem_cons.1 hx with rfl | hx
        · exact hy
        · exact ih r hr x hx
    exact has_iff.2 (this _ _ h1 x hx)

/-- **C112** (partial, the full claim without the hypothesis on the hashes is false): if no two placements of the loads on nodes of the
network have the same hash, comparing states by hash changes nothing, so that everything proved about `jam_solver` with real equality (C52,
C53, C59) holds for the code as it is. -/
theorem C112_states_by_hash_partial {E : JamEnv ι α} {g : Graph α Rat O} {raw : List (RawLoad ι α)} (hg : g.Built) (hw : NonNeg g.edge)
    (hE : E.Ok) (hids : (raw.map RawLoad.id).Nodup) {hash : Placement ι α → Int} (hh : HashesApart hash g raw) (timeout : Option Rat)
    (sync first : Bool) : jamSolverH hash E g raw timeout sync first = jamSolver E g raw timeout sync first := by
  unfold jamSolverH jamSolver
  cases hcu : checkUserInput E g raw with
  | none => rfl
  | some x =>
    cases x with
    | error e => rfl
    | ok loads =>
      dsimp only
      cases newTimer E.clock timeout with
      | error e => rfl
      | ok t =>
        dsimp only
        cases distMaps E.setOrd g loads with
        | none => rfl
        | some y =>
          cases y with
          | error e => rfl
          | ok maps =>
            dsimp only
            have hok : JamOk (jamCfg E g loads maps first) ∧ loads = raw.map (mkLoad E.setOrd) := by
              unfold checkUserInput at hcu
              rcases buildLoads_spec E.setOrd raw Dict.empty [] hids (by intro r _ h; cases h) with ⟨h1, h2⟩ | ⟨h1, d, ns, h2, h3, h4⟩
              · rw [h2] at hcu; cases hcu
              · rw [h2] at hcu
                dsimp only at hcu
                have hloads : d.items.map Prod.snd = raw.map (mkLoad E.setOrd) := by
                  rw [h3]; simp [Dict.empty]
                rw [hloads] at hcu
                have hns : ∀ x, x ∈ ns ↔ ∃ r ∈ raw, x = r.start ∨ x ∈ (mkLoad E.setOrd r).ends := by intro x; rw [h4]; simp
                by_cases hm : nodesMissing g ns (raw.map (mkLoad E.setOrd)) = true
                · rw [if_pos hm] at hcu; cases hcu
                · rw [if_neg hm] at hcu
                  have hl : loads = raw.map (mkLoad E.setOrd) := by
                    split at hcu
                    · split at hcu
                      · cases hcu
                      · cases hcu
                      · cases hcu; rfl
                    · cases hcu
                  subst hl
                  have hnm : ¬ NodeMissing g raw := fun h => hm ((nodesMissing_iff hE.setOrd hns).2 h)
                  have hhasS : ∀ r ∈ raw, g.has r.start = true := by
                    intro r hr
                    cases hh : g.has r.start with
                    | true => rfl
                    | false => exact absurd ⟨r, hr, .inl hh⟩ hnm
                  have hhasE : ∀ r ∈ raw, ∀ x ∈ r.endSet, g.has x = true := by
                    intro r hr x hx
                    cases hh : g.has x with
                    | true => rfl
                    | false => exact absurd ⟨r, hr, .inr ⟨x, hx, hh⟩⟩ hnm
                  have hidl : (raw.map (mkLoad E.setOrd)).map Load.id = raw.map RawLoad.id := by rw [List.map_map]; rfl
                  refine ⟨⟨hg, hw, ?_, ?_, ?_, ?_, hE.finOrd⟩, rfl⟩
                  · exact hidl ▸ hids
                  · intro l hl; obtain ⟨r, hr, rfl⟩ := List.mem_map.1 hl; exact hhasS r hr
                  · intro l hl x hx; obtain ⟨r, hr, rfl⟩ := List.mem_map.1 hl
                    exact hhasE r hr x (((mkLoad_ends hE.setOrd r).2.1 x).1 hx)
                  · intro l hl; obtain ⟨r, hr, rfl⟩ := List.mem_map.1 hl; exact (mkLoad_ends hE.setOrd r).1
            obtain ⟨hok, rfl⟩ := hok
            have hidl : (raw.map (mkLoad E.setOrd)).map Load.id = raw.map RawLoad.id := by rw [List.map_map]; rfl
            have hpl : ∀ p, (jamCfg E g (raw.map (mkLoad E.setOrd)) maps first).InU p → PlacedOn g raw p := fun p hp => ⟨hp.1.trans hidl, hp.2⟩
            rw [solveH_eq hok (rep := (jamCfg E g (raw.map (mkLoad E.setOrd)) maps first).rep hash) (fun p hp => repOf_self
              (fun q hq p hp hqp => hh q p (hpl _ (universe_inU hq)) (hpl _ (universe_inU hp)) hqp) (mem_universe hok hp)) E.clock t]
            rfl

/-! ### bounded evaluation -/

def JamCfg.solveHF (k : Nat) (rep : Placement ι α → Placement ι α) (c : JamCfg ι α O) (clock : Nat → Rat) (t : Timer) :
    Option (Py ((Ext × Option (List (Placement ι α))) × Timer)) :=
  match runFuel (c.searchStepH rep clock) k (c.initH rep, t) with
  | none => none
  | some (.error e) => some (.error e)
  | some (.ok (s, t)) => match endsLoopF k s.base.mov (rep c.start) ((c.ord c.finals).map rep) .inf none with
    | none => none
    | some (.error e) => some (.error e)
    | some (.ok (d, p)) => some (.ok ((d, p.map (fun p => c.start :: pathObjs s.objs p)), t))

theorem solveHF_ok {k : Nat} {rep : Placement ι α → Placement ι α} {c : JamCfg ι α O} {clock : Nat → Rat} {t : Timer} {r}
    (h : c.solveHF k rep clock t = some r) : c.solveH rep clock t = some r := by
  unfold JamCfg.solveHF at h
  unfold JamCfg.solveH
  cases hs : runFuel (c.searchStepH rep clock) k (c.initH rep, t) with
  | none => rw [hs] at h; cases h
  | some x =>
    rw [hs] at h
    rw [pyWhile_of_runFuel hs]
    cases x with
    | error e => exact h
    | ok y =>
      obtain ⟨s, t'⟩ := y
      dsimp only at h ⊢
      cases hb : endsLoopF k s.base.mov (rep c.start) ((c.ord c.finals).map rep) .inf none with
      | none => rw [hb] at h; cases h
      | some z => rw [hb] at h; rw [endsLoopF_ok _ _ _ _ hb]; exact h

def jamSolverHF (k : Nat) (hash : Placement ι α → Int) (E : JamEnv ι α) (g : Graph α Rat O) (raw : List (RawLoad ι α)) (timeout : Option Rat)
    (first : Bool) : Option (Py (List (List (ι × α × α)))) :=
  match checkUserInputF k E g raw with
  | none => none
  | some (.error e) => some (.error e)
  | some (.ok loads) => match newTimer E.clock timeout with
    | .error e => some (.error e)
    | .ok t => match distMapsF k E.setOrd g loads with
      | none => none
      | some (.error e) => some (.error e)
      | some (.ok maps) => match (jamCfg E g loads maps first).solveHF k ((jamCfg E g loads maps first).rep hash) E.clock t with
        | none => none
        | some (.error e) => some (.error e)
        | some (.ok ((_, p), t')) =>
          match p with
          | none => some (.error (if (t'.check E.clock).1 then .unSolvable else .noSolution))
          | some p =>
            if p = [] then some (.error (if (t'.check E.clock).1 then .unSolvable else .noSolution))
            else match pathToMoves p with
              | .error e => some (.error e)
              | .ok moves => syncF k moves (loads.map Load.start)

theorem jamSolverHF_ok {k : Nat} {hash : Placement ι α → Int} {E : JamEnv ι α} {g : Graph α Rat O} {raw : List (RawLoad ι α)}
    {timeout : Option Rat} {first : Bool} {r} (h : jamSolverHF k hash E g raw timeout first = some r) :
    jamSolverH hash E g raw timeout true first = some r := by
  unfold jamSolverHF at h
  unfold jamSolverH
  cases h1 : checkUserInputF k E g raw with
  | none => rw [h1] at h; cases h
  | some x =>
    rw [h1] at h; rw [checkUserInputF_ok h1]
    cases x with
    | error e => exact h
    | ok loads =>
      dsimp only at h ⊢
      cases h2 : newTimer E.clock timeout with
      | error e => rw [h2] at h; exact h
      | ok t =>
        rw [h2] at h
        dsimp only at h ⊢
        cases h3 : distMapsF k E.setOrd g loads with
        | none => rw [h3] at h; cases h
        | some y =>
          rw [h3] at h; rw [distMapsF_ok _ _ h3]
          cases y with
          | error e => exact h
          | ok maps =>
            dsimp only at h ⊢
            cases h4 : (jamCfg E g loads maps first).solveHF k ((jamCfg E g loads maps first).rep hash) E.clock t with
            | none => rw [h4] at h; cases h
            | some z =>
              rw [h4] at h; rw [solveHF_ok h4]
              cases z with
              | error e => exact h
              | ok w =>
                obtain ⟨⟨d, p⟩, t'⟩ := w
                dsimp only at h ⊢
                cases p with
                | none => exact h
                | some p =>
                  dsimp only at h ⊢
                  split
                  · rename_i h5; rw [if_pos h5] at h; exact h
                  · rename_i h5; rw [if_neg h5] at h
                    cases h6 : pathToMoves p with
                    | error e => rw [h6] at h; exact h
                    | ok moves =>
                      rw [h6] at h
                      exact pyWhile_of_runFuel h

/-! ### collisions in CPython: -1 and -2 -/

/-- insertion orders; a clock that stands still; integer nodes and load identifiers -/
def intEnv : JamEnv Int Int := ⟨id, fun _ l => l.headD 0, id, fun a b => decide (a < b), fun _ => 0⟩

theorem intEnv_ok : intEnv.Ok := ⟨fun _ => .refl _, fun _ => .refl _, fun _ l h => by cases l with
  | nil => exact absurd rfl h
  | cons a l => simp [intEnv]⟩

/-- `Graph(from_list=[(-1, -2, 1)])`, `{1: (-1, -2)}` -/
def jamColl : Graph Int Rat Nat := run [WI (-1) (-2) 1]
/-- two ways from 3 to 4: none over -1 and -2 -/
def jamColl2 : Graph Int Rat Nat := run [WI 3 (-1) 1, WI (-2) 4 1, WI 3 7 1, WI 7 8 1, WI 8 4 1]
/-- two ends -/
def jamColl3 : Graph Int Rat Nat := run [WI 5 (-1) 1, WI 5 (-2) 1]

/-- **C112** is violated: the hashes of the integers -1 and -2 are equal in CPython, hence also the hashes of the states that differ in them
only.  The load that has to go from -1 to -2 is taken to be there. -/
theorem C112_no_move_counterexample : jamColl.Built ∧ NonNeg jamColl.edge ∧
    jamSolverH hashPairs intEnv jamColl [⟨1, -1, some [-2], none⟩] none true false = some (.ok []) ∧
    ¬ Solves (conn jamColl) ([⟨1, -1, some [-2], none⟩] : List (RawLoad Int Int)) [] ∧
    jamSolver intEnv jamColl [⟨1, -1, some [-2], none⟩] none true false = some (.ok [[(1, -1, -2)]]) := by
  refine ⟨⟨_, rfl⟩, nonneg_of_edgeList (g := jamColl) ⟨_, rfl⟩ (by decide +kernel), jamSolverHF_ok (k := 20) (by decide +kernel), ?_,
    jamSolverF_ok (k := 20) (by decide +kernel)⟩
  rintro ⟨t, h1, h2⟩
  cases h1
  obtain ⟨_, h⟩ := h2
  obtain ⟨r, hr, _, hx⟩ := h (1, -1) (by simp [startPlacement])
  simp at hr
  subst hr
  simp [RawLoad.endSet] at hx

/-- **C112** is violated: a plan that uses a connection that does not exist (-1 to 4), although there is a plan. -/
theorem C112_illegal_move_counterexample : jamColl2.Built ∧ NonNeg jamColl2.edge ∧
    jamSolverH hashPairs intEnv jamColl2 [⟨1, 3, some [4], none⟩] none true false = some (.ok [[(1, 3, -1)], [(1, -1, 4)]]) ∧
    jamColl2.edge (-1) 4 = none ∧
    ¬ Solves (conn jamColl2) ([⟨1, 3, some [4], none⟩] : List (RawLoad Int Int)) [(1, 3, -1), (1, -1, 4)] ∧
    Solves (conn jamColl2) ([⟨1, 3, some [4], none⟩] : List (RawLoad Int Int)) [(1, 3, 7), (1, 7, 8), (1, 8, 4)] := by
  refine ⟨⟨_, rfl⟩, nonneg_of_edgeList (g := jamColl2) ⟨_, rfl⟩ (by decide +kernel), jamSolverHF_ok (k := 20) (by decide +kernel),
    by decide +kernel, ?_, solvesB_ok (by decide +kernel)⟩
  rintro ⟨t, ⟨_, _, _, _, ⟨_, h, _⟩⟩, _⟩
  revert h
  unfold conn
  decide +kernel

/-- **C112** is violated: with the ends -1 and -2 the solver raises `KeyError`, although there is a plan. -/
theorem C112_key_error_counterexample : jamColl3.Built ∧ NonNeg jamColl3.edge ∧
    jamSolverH hashPairs intEnv jamColl3 [⟨1, 5, some [-1, -2], none⟩] none true false = some (.error .keyError) ∧
    Solves (conn jamColl3) ([⟨1, 5, some [-1, -2], none⟩] : List (RawLoad Int Int)) [(1, 5, -1)] :=
  ⟨⟨_, rfl⟩, nonneg_of_edgeList (g := jamColl3) ⟨_, rfl⟩ (by decide +kernel), jamSolverHF_ok (k := 20) (by decide +kernel),
    solvesB_ok (by decide +kernel)⟩

/-! ### a jam without collisions -/

/-- all placements -/
def placed (ids : List ι) (nodes : List α) : List (Placement ι α) := cartesian (ids.map (fun i => nodes.map (fun x => (i, x))))

theorem mem_placed {ids : List ι} {nodes : List α} : ∀ {p : Placement ι α}, p.map Prod.fst = ids → (∀ x ∈ p, x.2 ∈ nodes) → p ∈ placed ids nodes := by
  induction ids with
  | nil => intro p h _; simp at h; subst h; simp [placed, cartesian]
  | cons i ids ih =>
    intro p h hp
    cases p with
    | nil => cases h
    | cons x p =>
      simp only [List.map_cons, List.cons.injEq] at h
      have := ih h.2 (fun y hy => hp y (List.mem_cons_of_mem _ hy))
      unfold placed at this ⊢
      simp only [List.map_cons, cartesian, List.mem_flatMap, List.mem_map]
      exact ⟨x, ⟨x.2, hp x (by simp), by rw [← h.1]⟩, p, this, rfl⟩

/-- two loads change places -/
def jamFree : Graph Int Rat Nat := run [WI 1 2 1, WI 2 1 1, WI 2 3 1, WI 3 2 1, WI 2 4 1, WI 4 2 1]
def jamFreeLoads : List (RawLoad Int Int) := [⟨1, 1, some [3], none⟩, ⟨2, 3, some [1], none⟩]

theorem jamFree_apart : HashesApart hashPairs jamFree jamFreeLoads := by
  intro p q hp hq h
  have hm : ∀ p, PlacedOn jamFree jamFreeLoads p → p ∈ placed [1, 2] jamFree.nodeList := fun p hp =>
    mem_placed hp.1 (fun x hx => has_iff.1 (hp.2 x hx))
  have key : ∀ p ∈ placed [(1 : Int), 2] jamFree.nodeList, ∀ q ∈ placed [(1 : Int), 2] jamFree.nodeList, hashPairs p = hashPairs q → p = q := by
    decide +kernel
  exact key p (hm p hp) q (hm q hq) h

/-- the hypotheses of `C112_states_by_hash_partial` are met, and there is a plan -/
example : jamSolverH hashPairs intEnv jamFree jamFreeLoads none true false = jamSolver intEnv jamFree jamFreeLoads none true false ∧
    ∃ steps, steps ≠ [] ∧ jamSolver intEnv jamFree jamFreeLoads none true false = some (.ok steps) :=
  ⟨C112_states_by_hash_partial ⟨_, rfl⟩ (nonneg_of_edgeList (g := jamFree) ⟨_, rfl⟩ (by decide +kernel)) intEnv_ok (by decide) jamFree_apart _ _ _,
    [[(1, 1, 2)], [(1, 2, 4), (2, 3, 2)], [(2, 2, 1), (1, 4, 2)], [(1, 2, 3)]], by decide, jamSolverF_ok (k := 60) (by decide +kernel)⟩
end GT
