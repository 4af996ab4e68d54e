import Verif.Other.Tsp2023
import Verif.Flow.MinCost
/-
Model of `tsp_branch_and_bound` (graph/tsp.py:9-92) and proofs.
-/
namespace GT
variable {α O : Type} [DecidableEq α]

/-- `bisect.insort` into a sorted list: behind all elements that are not greater -/
def insortR {β : Type} (lt : β → β → Bool) (x : β) : List β → List β
  | [] => [x]
  | y :: l => if lt x y then x :: y :: l else y :: insortR lt x l

/-- the loop of `lower_bound` (tsp.py:21-37): `rest` are the nodes still to visit, `edges` the chosen edges, `acc` the sum of their values -/
def lbLoop (nlt : α → α → Bool) (g : Graph α Rat O) (nodes : List α) : List α → List (α × α) → Rat → Rat
  | [], _, acc => acc
  | n :: rest, edges, acc =>
    let L2 := pySort (fun x y : Rat × α => decide (x.1 < y.1) || (decide (x.1 = y.1) && nlt x.2 y.2))
      ((g.edgesFrom n).filterMap (fun e => if e.2.1 ∈ nodes ∧ e.2.1 ≠ n then some (e.2.2, e.2.1) else none))
    match L2.find? (fun p => decide ((p.2, n) ∉ edges)) with
    | none => lbLoop nlt g nodes rest edges acc
    | some p => lbLoop nlt g nodes rest ((n, p.2) :: edges) (acc + p.1)

/-- the iteration orders of the sets: `rem tour` of `all_nodes - set(tour)` (tsp.py:73-75), `lb tour` of the set passed to `lower_bound` for
`tour`.  Within one run the order of a set is determined by how it was built, hence by `tour`. -/
structure SetOrders (α : Type) where
  rem : List α → List α → List α
  lb : List α → List α → List α

structure SetOrders.Ok (it : SetOrders α) : Prop where
  rem : ∀ t l, (it.rem t l).Perm l
  lb : ∀ t l, (it.lb t l).Perm l

/-- `sum(d for n, n2, d in lower_bound(graph, nodes))` -/
def lowerBound (nlt : α → α → Bool) (it : SetOrders α) (g : Graph α Rat O) (tour nodes : List α) : Rat :=
  lbLoop nlt g nodes (it.lb tour nodes) [] 0

/-- an entry of the queue: `(bound, -len(tour), tour)` -/
abbrev BnbEntry (α : Type) := Ext × Int × List α

/-- the order of the entries of `q` -/
def bnbLt (nlt : α → α → Bool) (x y : BnbEntry α) : Bool :=
  x.1.ltB y.1 || (decide (x.1 = y.1) && (decide (x.2.1 < y.2.1) || (decide (x.2.1 = y.2.1) && lexLt nlt x.2.2 y.2.2)))

/-- the order of the entries of `q2` -/
def bnb2Lt (nlt : α → α → Bool) (x y : Ext × List α) : Bool := x.1.ltB y.1 || (decide (x.1 = y.1) && lexLt nlt x.2 y.2)

/-- the initial queue (tsp.py:45-56) -/
def bnbInit (nlt : α → α → Bool) (it : SetOrders α) (g : Graph α Rat O) (start : α) : List (BnbEntry α) :=
  (g.edgesFrom start).foldl (fun q e =>
    insortR (bnbLt nlt) (.fin (e.2.2 + lowerBound nlt it g [start] (g.nodeList.filter (fun x => decide (x ≠ start)))), -2, [start, e.2.1]) q) []

/-- the entry for one node of `remaining_nodes` (tsp.py:76-90) -/
def bnbChild (nlt : α → α → Bool) (it : SetOrders α) (g : Graph α Rat O) (tour rem : List α) (n2 : α) : Option (Py (BnbEntry α)) :=
  let lbSet := rem.filter (fun x => decide (x ≠ n2))
  if 1 < lbSet.length then
    match g.distanceFromPath (tour ++ [n2]) with
    | none => none
    | some (.error e) => some (.error e)
    | some (.ok d) => some (.ok (d.add (.fin (lowerBound nlt it g (tour ++ [n2]) lbSet)), -((tour ++ [n2]).length : Int), tour ++ [n2]))
  else match lbSet with
    | [last] =>
      match g.distanceFromPath (tour ++ [n2] ++ (last :: tour.take 1)) with
      | none => none
      | some (.error e) => some (.error e)
      | some (.ok d) => some (.ok (d, -((tour ++ [n2] ++ (last :: tour.take 1)).length : Int), tour ++ [n2] ++ (last :: tour.take 1)))
    | _ => some (.error .exception)

/-- the loop over `remaining_nodes` (tsp.py:75-90) -/
def bnbExpand (nlt : α → α → Bool) (it : SetOrders α) (g : Graph α Rat O) (tour rem : List α) :
    List α → List (BnbEntry α) → Option (Py (List (BnbEntry α)))
  | [], q => some (.ok q)
  | n2 :: l, q => match bnbChild nlt it g tour rem n2 with
    | none => none
    | some (.error e) => some (.error e)
    | some (.ok x) => bnbExpand nlt it g tour rem l (insortR (bnbLt nlt) x q)

/-- local state of the loop -/
structure BnbSt (α : Type) where
  q : List (BnbEntry α)
  hit : Nat
  q2 : List (Ext × List α)

/-- `set(tour) == all_nodes` -/
def coversB (nodes tour : List α) : Bool := nodes.all (fun x => decide (x ∈ tour)) && tour.all (fun x => decide (x ∈ nodes))

/-- the body of `while q` (tsp.py:59-90) and `return float("inf"), []` (line 92); `glb` is `global_lower_bound` -/
def bnbStep (nlt : α → α → Bool) (it : SetOrders α) (g : Graph α Rat O) (glb : Rat) (s : BnbSt α) : Option (BnbSt α ⊕ Py (Ext × List α)) :=
  match s.q with
  | [] => some (.inr (.ok (.inf, [])))
  | (d, _, tour) :: q =>
    if coversB g.nodeList tour = true then
      if s.hit < g.nodeList.length then some (.inl ⟨q, s.hit + 1, insortR (bnb2Lt nlt) (d, tour) s.q2⟩)
      else match s.q2 with
        | [] => some (.inr (.error .indexError))
        | (d, tour) :: _ => if d.ltB (.fin glb) then some (.inr (.error .assertionError)) else some (.inr (.ok (d, tour.dropLast)))
    else
      let rem := it.rem tour (g.nodeList.filter (fun x => decide (x ∉ tour)))
      match bnbExpand nlt it g tour rem rem q with
      | none => none
      | some (.error e) => some (.inr (.error e))
      | some (.ok q) => some (.inl ⟨q, s.hit, s.q2⟩)

/-- `tsp_branch_and_bound` (tsp.py:9-92); `graph.nodes()[0]` raises `IndexError` for the empty graph -/
def bnb (nlt : α → α → Bool) (it : SetOrders α) (g : Graph α Rat O) : Option (Py (Ext × List α)) :=
  match g.nodeList with
  | [] => some (.error .indexError)
  | start :: _ => pyWhileD (bnbStep nlt it g (lowerBound nlt it g [] g.nodeList)) ⟨bnbInit nlt it g start, 0, []⟩

/-! ### proofs -/

theorem insortR_perm {β : Type} (lt : β → β → Bool) (x : β) (l : List β) : (insortR lt x l).Perm (x :: l) := by
  induction l with
  | nil => exact .refl _
  | cons y l ih =>
    unfold insortR
    split
    · exact .refl _
    · exact (ih.cons y).trans (.swap x y l)

/-- factorial -/
def fct : Nat → Nat
  | 0 => 1
  | n + 1 => (n + 1) * fct n

/-- weight of an entry with `r` remaining nodes -/
def wgt : Nat → Nat
  | 0 => 1
  | n + 1 => 1 + (n + 1) * wgt n

theorem wgt_pos (n : Nat) : 1 ≤ wgt n := by cases n <;> simp [wgt]

/-- number of nodes not in the tour -/
def remN (nodes tour : List α) : Nat := (nodes.filter (fun x => decide (x ∉ tour))).length

/-- an entry of the queue: the beginning of a round trip from `start` with at least two missing nodes, or a round trip -/
def BnbOk (g : Graph α Rat O) (start : α) (e : BnbEntry α) : Prop :=
  (∃ p, e.2.2 = start :: p ∧ (start :: p).Nodup ∧ (∀ x ∈ p, x ∈ g.nodeList) ∧ 2 ≤ remN g.nodeList e.2.2) ∨
  (∃ p, e.2.2 = start :: p ++ [start] ∧ (start :: p).Perm g.nodeList ∧ e.1 = .fin (clen (totW g.edge) (start :: p)))

def sumN {β : Type} (f : β → Nat) (l : List β) : Nat := (l.map f).sum

theorem sumN_perm {β : Type} (f : β → Nat) {l m : List β} (h : l.Perm m) : sumN f l = sumN f m := by
  unfold sumN; exact (h.map f).sum_nat

theorem sumN_append {β : Type} (f : β → Nat) (l m : List β) : sumN f (l ++ m) = sumN f l + sumN f m := by
  simp [sumN]

theorem sumN_const {β : Type} {f : β → Nat} {c : Nat} {l : List β} (h : ∀ x ∈ l, f x = c) : sumN f l = l.length * c := by
  induction l with
  | nil => simp [sumN]
  | cons a l ih =>
    have := ih (fun x hx => h x (List.mem_cons_of_mem _ hx))
    unfold sumN at *
    simp only [List.map_cons, List.sum_cons, List.length_cons]
    rw [this, h a (by simp), Nat.succ_mul, Nat.add_comm]

theorem sumN_le {β : Type} {f : β → Nat} {c : Nat} {l : List β} (h : ∀ x ∈ l, f x ≤ c) : sumN f l ≤ l.length * c := by
  induction l with
  | nil => simp [sumN]
  | cons a l ih =>
    have := ih (fun x hx => h x (List.mem_cons_of_mem _ hx))
    have := h a (by simp)
    unfold sumN at *
    simp only [List.map_cons, List.sum_cons, List.length_cons, Nat.succ_mul]
    omega

theorem filter_not_snoc {nodes tour : List α} (n2 : α) :
    nodes.filter (fun x => decide (x ∉ tour ++ [n2])) = (nodes.filter (fun x => decide (x ∉ tour))).filter (fun x => decide (x ≠ n2)) := by
  rw [List.filter_filter]
  congr 1
  funext x
  simp [Bool.and_comm]

theorem filter_ne_length {l : List α} (hn : l.Nodup) {a : α} (ha : a ∈ l) : (l.filter (fun x => decide (x ≠ a))).length + 1 = l.length := by
  have h1 : (l.filter (fun x => decide (x ≠ a))) = l.erase a := by
    rw [hn.erase_eq_filter]
    congr 1; funext x; simp [bne]; cases h : (x == a) <;> simp_all
  rw [h1, List.length_erase_of_mem ha]
  have := List.length_pos_of_mem ha
  omega

/-- one child of an unfinished entry -/
theorem bnbChild_spec {nlt : α → α → Bool} {it : SetOrders α} {g : Graph α Rat O} (h : g.Inv) (hc : CompletePos g.edge g.nodeList) {start : α} (hst : start ∈ g.nodeList)
    {p rem : List α} (hnd : (start :: p).Nodup) (hp : ∀ x ∈ p, x ∈ g.nodeList) (hr2 : 2 ≤ remN g.nodeList (start :: p))
    (hrem : rem.Perm (g.nodeList.filter (fun x => decide (x ∉ start :: p)))) {n2 : α} (hn2 : n2 ∈ rem) :
    ∃ e, bnbChild nlt it g (start :: p) rem n2 = some (.ok e) ∧ BnbOk g start e ∧
      fct (remN g.nodeList e.2.2) = fct (remN g.nodeList (start :: p) - 1) ∧
      wgt (remN g.nodeList e.2.2) ≤ wgt (remN g.nodeList (start :: p) - 1) := by
  have hnn : g.nodeList.Nodup := h.nodesWF
  have hn2' := (hrem.mem_iff.1 hn2)
  rw [List.mem_filter] at hn2'
  have hn2t : n2 ∉ start :: p := by simpa using hn2'.2
  have hnd2 : (start :: (p ++ [n2])).Nodup := by
    have : (start :: p ++ [n2]).Nodup := by
      rw [List.nodup_append]
      refine ⟨hnd, by simp, ?_⟩
      intro a ha b hb hab
      simp at hb; subst hb; subst hab; exact hn2t ha
    exact this
  have hmem2 : ∀ x ∈ start :: (p ++ [n2]), x ∈ g.nodeList := by
    intro x hx
    simp only [List.mem_cons, List.mem_append, List.not_mem_nil, or_false] at hx
    rcases hx with rfl | hx | rfl
    · exact hst
    · exact hp x hx
    · exact hn2'.1
  have hremnd : rem.Nodup := hrem.nodup_iff.2 (hnn.filter _)
  have hlen : rem.length = remN g.nodeList (start :: p) := hrem.length_eq
  have hset : (rem.filter (fun x => decide (x ≠ n2))).Perm (g.nodeList.filter (fun x => decide (x ∉ start :: p ++ [n2]))) := by
    rw [filter_not_snoc]; exact hrem.filter _
  have hsl : (rem.filter (fun x => decide (x ≠ n2))).length + 1 = rem.length := filter_ne_length hremnd hn2
  have hrn : remN g.nodeList (start :: (p ++ [n2])) = remN g.nodeList (start :: p) - 1 := by
    have := hset.length_eq
    unfold remN at *
    simp only [List.cons_append] at this
    rw [← this]; omega
  unfold bnbChild
  dsimp only
  split
  · rename_i hgt
    have hd : g.distanceFromPath (start :: p ++ [n2]) = some (.ok (.fin (0 + plen (totW g.edge) (start :: p ++ [n2])))) := by
      unfold Graph.distanceFromPath
      exact dfpLoop_direct _ _ _ (consec_of_nodup (U := fun z => z ∈ g.nodeList) hnd2 hmem2 (fun a b ha hb hab => hc.totW ha hb hab))
    rw [hd]
    refine ⟨_, rfl, .inl ⟨p ++ [n2], rfl, hnd2, ?_, ?_⟩, ?_, ?_⟩
    · intro x hx; exact hmem2 x (List.mem_cons_of_mem _ hx)
    · dsimp only [List.cons_append]; rw [hrn]; omega
    · dsimp only [List.cons_append]; rw [hrn]
    · dsimp only [List.cons_append]; rw [hrn]; exact Nat.le_refl _
  · rename_i hle
    have h1 : (rem.filter (fun x => decide (x ≠ n2))).length = 1 := by omega
    match hs : rem.filter (fun x => decide (x ≠ n2)), h1 with
    | [last], _ =>
      rw [hs] at hset
      have hlast := hset.mem_iff.1 (List.mem_singleton_self last)
      rw [List.mem_filter] at hlast
      have hlt : last ∉ start :: (p ++ [n2]) := by simpa using hlast.2
      have hfull : (start :: (p ++ [n2, last])).Perm g.nodeList := by
        have hnd3 : (start :: (p ++ [n2]) ++ [last]).Nodup := by
          rw [List.nodup_append]
          refine ⟨hnd2, by simp, ?_⟩
          intro a ha b hb hab
          simp at hb; subst hb; subst hab; exact hlt ha
        rw [show start :: (p ++ [n2, last]) = start :: (p ++ [n2]) ++ [last] by simp]
        rw [List.perm_ext_iff_of_nodup hnd3 hnn]
        intro x
        constructor
        · intro hx
          rcases List.mem_append.1 hx with hx | hx
          · exact hmem2 x hx
          · simp at hx; subst hx; exact hlast.1
        · intro hx
          by_cases hxt : x ∈ start :: (p ++ [n2])
          · exact List.mem_append_left _ hxt
          · have : x ∈ [last] := hset.mem_iff.2 (List.mem_filter.2 ⟨hx, by simpa using hxt⟩)
            exact List.mem_append_right _ this
      have e1 : start :: p ++ [n2] ++ (last :: (start :: p).take 1) = start :: (p ++ [n2, last]) ++ [start] := by simp
      dsimp only
      rw [e1, distanceFromPath_tour hc hnn (by have := hfull.length_eq; simp at this; omega) hfull]
      have h0 : remN g.nodeList (start :: (p ++ [n2, last]) ++ [start]) = 0 := by
        unfold remN
        rw [List.length_eq_zero_iff, List.filter_eq_nil_iff]
        intro x hx
        have := hfull.mem_iff.2 hx
        simp at this ⊢
        grind
      refine ⟨_, rfl, .inr ⟨p ++ [n2, last], rfl, hfull, rfl⟩, ?_, ?_⟩
      · dsimp only; rw [h0, show remN g.nodeList (start :: p) - 1 = 1 by omega]; rfl
      · dsimp only; rw [h0]; exact wgt_pos _

theorem bnbExpand_spec {nlt : α → α → Bool} {it : SetOrders α} {g : Graph α Rat O} (h : g.Inv) (hc : CompletePos g.edge g.nodeList) {start : α} (hst : start ∈ g.nodeList)
    {p rem : List α} (hnd : (start :: p).Nodup) (hp : ∀ x ∈ p, x ∈ g.nodeList) (hr2 : 2 ≤ remN g.nodeList (start :: p))
    (hrem : rem.Perm (g.nodeList.filter (fun x => decide (x ∉ start :: p)))) (l : List α) : ∀ q, (∀ x ∈ l, x ∈ rem) →
    ∃ q' es, bnbExpand nlt it g (start :: p) rem l q = some (.ok q') ∧ q'.Perm (es ++ q) ∧ es.length = l.length ∧ (∀ e ∈ es, BnbOk g start e) ∧
      (∀ e ∈ es, fct (remN g.nodeList e.2.2) = fct (remN g.nodeList (start :: p) - 1)) ∧
      (∀ e ∈ es, wgt (remN g.nodeList e.2.2) ≤ wgt (remN g.nodeList (start :: p) - 1)) := by
  induction l with
  | nil => intro q _; exact ⟨q, [], rfl, .refl _, rfl, by simp, by simp, by simp⟩
  | cons n2 l ih =>
    intro q hl
    obtain ⟨e, h1, h2, h3, h4⟩ := bnbChild_spec (nlt := nlt) (it := it) h hc hst hnd hp hr2 hrem (hl n2 (by simp))
    unfold bnbExpand
    rw [h1]; dsimp only
    obtain ⟨q', es, h5, h6, h7, h8, h9, h10⟩ := ih (insortR (bnbLt nlt) e q) (fun x hx => hl x (List.mem_cons_of_mem _ hx))
    refine ⟨q', es ++ [e], h5, ?_, by simp [h7], ?_, ?_, ?_⟩
    · refine h6.trans ?_
      rw [List.append_assoc]
      exact (insortR_perm _ _ _).append_left _
    · intro x hx; rcases List.mem_append.1 hx with hx | hx
      · exact h8 x hx
      · simp at hx; subst hx; exact h2
    · intro x hx; rcases List.mem_append.1 hx with hx | hx
      · exact h9 x hx
      · simp at hx; subst hx; exact h3
    · intro x hx; rcases List.mem_append.1 hx with hx | hx
      · exact h10 x hx
      · simp at hx; subst hx; exact h4

theorem fct_gt {n : Nat} (h : 4 ≤ n) : n < fct (n - 1) := by
  obtain ⟨m, rfl⟩ : ∃ m, n = m + 4 := ⟨n - 4, by omega⟩
  clear h
  show m + 4 < fct (m + 3)
  induction m with
  | zero => decide
  | succ m ih =>
    show m + 1 + 4 < (m + 3 + 1) * fct (m + 3)
    have : (m + 3 + 1) * (m + 4 + 1) ≤ (m + 3 + 1) * fct (m + 3) := Nat.mul_le_mul_left _ ih
    have h2 : (m + 3 + 1) * (m + 4 + 1) = m * m + 9 * m + 20 := by simp [Nat.mul_add, Nat.add_mul]; omega
    omega

theorem bnbInit_spec {nlt : α → α → Bool} {it : SetOrders α} {g : Graph α Rat O} (start : α) (l : List (α × α × Rat)) : ∀ q : List (BnbEntry α),
    ∃ es, (l.foldl (fun q e =>
      insortR (bnbLt nlt) (.fin (e.2.2 + lowerBound nlt it g [start] (g.nodeList.filter (fun x => decide (x ≠ start)))), -2, [start, e.2.1]) q) q).Perm
        (es ++ q) ∧ es.length = l.length ∧ ∀ x ∈ es, ∃ e ∈ l, x.2.2 = [start, e.2.1] := by
  induction l with
  | nil => intro q; exact ⟨[], .refl _, rfl, by simp⟩
  | cons e l ih =>
    intro q
    rw [List.foldl_cons]
    obtain ⟨es, h1, h2, h3⟩ := ih (insortR (bnbLt nlt)
      (.fin (e.2.2 + lowerBound nlt it g [start] (g.nodeList.filter (fun x => decide (x ≠ start)))), -2, [start, e.2.1]) q)
    refine ⟨es ++ [(.fin (e.2.2 + lowerBound nlt it g [start] (g.nodeList.filter (fun x => decide (x ≠ start)))), -2, [start, e.2.1])], ?_, by simp [h2], ?_⟩
    · refine h1.trans ?_
      rw [List.append_assoc]
      exact (insortR_perm _ _ _).append_left _
    · intro x hx
      rcases List.mem_append.1 hx with hx | hx
      · obtain ⟨e', he', h⟩ := h3 x hx
        exact ⟨e', List.mem_cons_of_mem _ he', h⟩
      · simp at hx; subst hx; exact ⟨e, by simp, rfl⟩

/-- four nodes or more, no edge from the first node to itself: a round trip with its length, or `AssertionError` -/
theorem bnb_spec {nlt : α → α → Bool} {it : SetOrders α} (hit : it.Ok) {g : Graph α Rat O} (h : g.Inv) (hc : CompletePos g.edge g.nodeList)
    (h4 : 4 ≤ g.nodeList.length) {start : α} (hst : g.nodeList.head? = some start) (hself : g.edge start start = none) :
    ∃ r, bnb nlt it g = some r ∧ (r = .error .assertionError ∨
      ∃ p, r = .ok (.fin (clen (totW g.edge) (start :: p)), start :: p) ∧ (start :: p).Perm g.nodeList) := by
  have hnn : g.nodeList.Nodup := h.nodesWF
  obtain ⟨rest, hnl⟩ := List.head?_eq_some_iff.1 hst
  have hstm : start ∈ g.nodeList := by rw [hnl]; simp
  unfold bnb
  rw [hnl]; dsimp only; rw [← hnl]
  generalize lowerBound nlt it g [] g.nodeList = glb
  -- the number of entries at the beginning
  obtain ⟨es, hes, hesl, hesx⟩ := bnbInit_spec (nlt := nlt) (it := it) (g := g) start (g.edgesFrom start) []
  have hdeg : (g.edgesFrom start).length + 1 = g.nodeList.length := by
    have hp : ((g.edgesFrom start).map (fun e => e.2.1)).Perm rest := by
      rw [List.perm_ext_iff_of_nodup ?_ (List.nodup_cons.1 (hnl ▸ hnn)).2]
      · intro x
        rw [List.mem_map]
        constructor
        · rintro ⟨⟨a, b, v⟩, h1, rfl⟩
          obtain ⟨rfl, h2⟩ := h.mem_edgesFrom.1 h1
          have hb : b ∈ g.nodeList := (h.edge_mem h2).2
          rw [hnl] at hb
          rcases List.mem_cons.1 hb with rfl | hb
          · rw [hself] at h2; cases h2
          · exact hb
        · intro hx
          have hne : start ≠ x := by
            rintro rfl
            exact (List.nodup_cons.1 (hnl ▸ hnn)).1 hx
          obtain ⟨v, hv, _⟩ := hc start hstm x (by rw [hnl]; exact List.mem_cons_of_mem _ hx) hne
          exact ⟨(start, x, v), h.mem_edgesFrom.2 ⟨rfl, hv⟩, rfl⟩
      · rw [Graph.edgesFrom_eq_row, List.map_map]
        exact h.rowWF start
    have := hp.length_eq
    rw [List.length_map] at this
    rw [hnl, List.length_cons]; omega
  have hesok : ∀ e ∈ es, BnbOk g start e ∧ remN g.nodeList e.2.2 = g.nodeList.length - 2 := by
    intro e he
    obtain ⟨⟨a, b, v⟩, h1, h2⟩ := hesx e he
    obtain ⟨rfl, h3⟩ := h.mem_edgesFrom.1 h1
    have hb : b ∈ g.nodeList := (h.edge_mem h3).2
    have hne : a ≠ b := by rintro rfl; rw [hself] at h3; cases h3
    have hrn : remN g.nodeList e.2.2 = g.nodeList.length - 2 := by
      rw [h2]
      unfold remN
      dsimp only
      have e1 : g.nodeList.filter (fun x => decide (x ∉ [a, b])) =
          (g.nodeList.filter (fun x => decide (x ≠ a))).filter (fun x => decide (x ≠ b)) := by
        rw [List.filter_filter]; congr 1; funext x; simp [Bool.and_comm]
      rw [e1]
      have l1 := filter_ne_length hnn hstm
      have l2 := filter_ne_length (hnn.filter (fun x => decide (x ≠ a))) (a := b) (List.mem_filter.2 ⟨hb, by simpa using Ne.symm hne⟩)
      omega
    refine ⟨.inl ⟨[b], h2, by simp [hne], by simpa using hb, by rw [hrn]; omega⟩, hrn⟩
  let I : BnbSt α → Prop := fun s => (∀ e ∈ s.q, BnbOk g start e) ∧ s.hit ≤ g.nodeList.length ∧ s.q2.length = s.hit ∧
    s.hit + sumN (fun e : BnbEntry α => fct (remN g.nodeList e.2.2)) s.q = fct (g.nodeList.length - 1) ∧
    ∀ e ∈ s.q2, ∃ p, e = (.fin (clen (totW g.edge) (start :: p)), start :: p ++ [start]) ∧ (start :: p).Perm g.nodeList
  refine pyWhileD_total (step := bnbStep nlt it g glb) I
    (fun r : Py (Ext × List α) => r = .error .assertionError ∨
      ∃ p, r = .ok (.fin (clen (totW g.edge) (start :: p)), start :: p) ∧ (start :: p).Perm g.nodeList)
    (· < ·) Nat.lt_wfRel.wf (fun s => sumN (fun e : BnbEntry α => wgt (remN g.nodeList e.2.2)) s.q) ?_ ?_
  · rintro ⟨q, hits, q2⟩ ⟨i1, i2, i3, i4, i5⟩
    dsimp only at i1 i2 i3 i4 i5
    unfold bnbStep
    dsimp only
    cases q with
    | nil =>
      have := fct_gt h4
      simp [sumN] at i4
      omega
    | cons e q =>
      obtain ⟨d, m, tour⟩ := e
      dsimp only
      have hq : ∀ e ∈ q, BnbOk g start e := fun e he => i1 e (List.mem_cons_of_mem _ he)
      rcases i1 _ (List.mem_cons_self) with ⟨p, h1, h2, h3, h5⟩ | ⟨p, h1, h2, h3⟩
      · -- expand
        dsimp only at h1
        subst h1
        have hcov : coversB g.nodeList (start :: p) = false := by
          cases hcv : coversB g.nodeList (start :: p) with
          | false => rfl
          | true =>
            unfold coversB at hcv
            rw [Bool.and_eq_true, List.all_eq_true] at hcv
            have : remN g.nodeList (start :: p) = 0 := by
              unfold remN
              rw [List.length_eq_zero_iff, List.filter_eq_nil_iff]
              intro x hx
              have := hcv.1 x hx
              simp at this ⊢
              exact fun h0 => this.resolve_left h0
            dsimp only at h5; omega
        rw [if_neg (by rw [hcov]; simp)]
        have hrem := hit.rem (start :: p) (g.nodeList.filter (fun x => decide (x ∉ start :: p)))
        generalize it.rem (start :: p) (g.nodeList.filter (fun x => decide (x ∉ start :: p))) = rem at hrem
        obtain ⟨q', es', e1, e2, e3, e4, e5, e6⟩ := bnbExpand_spec (nlt := nlt) (it := it) h hc hstm h2 h3 h5 hrem rem q (fun _ hx => hx)
        rw [e1]
        have hlr : rem.length = remN g.nodeList (start :: p) := hrem.length_eq
        obtain ⟨k, hk⟩ : ∃ k, remN g.nodeList (start :: p) = k + 1 := ⟨remN g.nodeList (start :: p) - 1, by dsimp only at h5; omega⟩
        refine .inl ⟨_, rfl, ⟨?_, i2, i3, ?_, i5⟩, ?_⟩
        · intro e he
          rcases List.mem_append.1 (e2.mem_iff.1 he) with he | he
          · exact e4 e he
          · exact hq e he
        · dsimp only
          rw [sumN_perm _ e2, sumN_append, sumN_const e5, e3, hlr, hk]
          rw [show sumN (fun e : BnbEntry α => fct (remN g.nodeList e.2.2)) ((d, m, start :: p) :: q) =
            fct (remN g.nodeList (start :: p)) + sumN (fun e : BnbEntry α => fct (remN g.nodeList e.2.2)) q by simp [sumN], hk] at i4
          rw [← i4]
          rfl
        · dsimp only
          rw [sumN_perm _ e2, sumN_append]
          rw [show sumN (fun e : BnbEntry α => wgt (remN g.nodeList e.2.2)) ((d, m, start :: p) :: q) =
            wgt (remN g.nodeList (start :: p)) + sumN (fun e : BnbEntry α => wgt (remN g.nodeList e.2.2)) q by simp [sumN]]
          have := sumN_le e6
          rw [e3, hlr, hk] at this
          rw [hk]
          simp only [wgt, Nat.add_sub_cancel] at this ⊢
          omega
      · dsimp only at h1 h3
        subst h1 h3
        have hcov : coversB g.nodeList (start :: p ++ [start]) = true := by
          unfold coversB
          rw [Bool.and_eq_true, List.all_eq_true, List.all_eq_true]
          constructor
          · intro x hx
            rw [decide_eq_true_eq]
            exact List.mem_append_left _ (h2.mem_iff.2 hx)
          · intro x hx
            rw [decide_eq_true_eq]
            rcases List.mem_append.1 hx with hx | hx
            · exact h2.mem_iff.1 hx
            · simp at hx; subst hx; exact hstm
        have h0 : remN g.nodeList (start :: p ++ [start]) = 0 := by
          unfold remN
          rw [List.length_eq_zero_iff, List.filter_eq_nil_iff]
          intro x hx
          have := h2.mem_iff.2 hx
          simp at this ⊢
          grind
        rw [if_pos hcov]
        split
        · rename_i hlt
          refine .inl ⟨_, rfl, ⟨hq, ?_, ?_, ?_, ?_⟩, ?_⟩
          · dsimp only; omega
          · dsimp only; rw [(insortR_perm _ _ _).length_eq]; simp [i3]
          · dsimp only
            simp only [sumN, List.map_cons, List.sum_cons] at i4 ⊢
            rw [h0] at i4
            simp only [fct] at i4
            omega
          · intro e he
            rw [(insortR_perm _ _ _).mem_iff] at he
            rcases List.mem_cons.1 he with rfl | he
            · exact ⟨p, rfl, h2⟩
            · exact i5 e he
          · dsimp only
            simp only [sumN, List.map_cons, List.sum_cons]
            rw [h0]; simp [wgt]
        · cases q2 with
          | nil => simp at i3; omega
          | cons e q2 =>
            obtain ⟨p', rfl, hp'⟩ := i5 e (by simp)
            dsimp only
            split
            · exact .inr ⟨_, rfl, .inl rfl⟩
            · refine .inr ⟨_, rfl, .inr ⟨p', ?_, hp'⟩⟩
              rw [List.dropLast_concat]
  · refine ⟨?_, by simp, rfl, ?_, by simp⟩
    · intro e he
      have := hes.mem_iff.1 he
      rw [List.append_nil] at this
      exact (hesok e this).1
    · dsimp only
      unfold bnbInit
      rw [sumN_perm _ hes, List.append_nil, sumN_const (c := fct (g.nodeList.length - 2)) (fun e he => by rw [(hesok e he).2]), hesl]
      obtain ⟨k, hk⟩ : ∃ k, g.nodeList.length = k + 2 := ⟨g.nodeList.length - 2, by omega⟩
      rw [show (g.edgesFrom start).length = k + 1 by omega, hk]
      simp [fct]

end GT
