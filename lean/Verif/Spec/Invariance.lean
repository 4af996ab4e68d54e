import Verif.Spec.Dist
import Verif.Spec.Sched
/-
Independent specification vocabulary: networks that differ only in the names of the nodes, the direction of the edges or the unit of the
values.  Nothing here refers to the model of the library.
-/
namespace GT
variable {α β V : Type}

/-- the second network is the first with the nodes renamed by `f` -/
structure Renamed (f : α → β) (N : α → Prop) (N' : β → Prop) (w : α → α → Option V) (w' : β → β → Option V) : Prop where
  inj : ∀ x y, f x = f y → x = y
  nodes : ∀ y, N' y ↔ ∃ x, N x ∧ f x = y
  edges : ∀ a b, w' (f a) (f b) = w a b

/-- the distance in the unit that is `k` times smaller -/
def Ext.scale (k : Rat) : Ext → Ext
  | .fin d => .fin (k * d)
  | .inf => .inf

/-! ### walks of renamed networks -/

theorem walkCost_renamed {f : α → β} {w : α → α → Option Rat} {w' : β → β → Option Rat} (h : ∀ a b, w' (f a) (f b) = w a b) (p : List α) :
    walkCost w' (p.map f) = walkCost w p := by
  induction p with
  | nil => rfl
  | cons a l ih =>
    cases l with
    | nil => rfl
    | cons b l =>
      simp only [List.map_cons, walkCost, h] at ih ⊢
      rw [ih]

theorem exists_preimage {f : α → β} (p : List β) (h : ∀ y ∈ p, ∃ x, f x = y) : ∃ q : List α, p = q.map f := by
  induction p with
  | nil => exact ⟨[], rfl⟩
  | cons y p ih =>
    obtain ⟨x, rfl⟩ := h y (by simp)
    obtain ⟨q, rfl⟩ := ih (fun z hz => h z (by simp [hz]))
    exact ⟨x :: q, rfl⟩

theorem WalkOf.renamed {f : α → β} {w : α → α → Option Rat} {w' : β → β → Option Rat} (h : ∀ a b, w' (f a) (f b) = w a b)
    {a b : α} {p : List α} {c : Rat} (hp : WalkOf w a b p c) : WalkOf w' (f a) (f b) (p.map f) c := by
  obtain ⟨h1, h2, h3⟩ := hp
  exact ⟨by simp [h1], by simp [h2], by rw [walkCost_renamed h, h3]⟩

theorem WalkOf.unrenamed {f : α → β} (hf : ∀ x y, f x = f y → x = y) {w : α → α → Option Rat} {w' : β → β → Option Rat}
    (h : ∀ a b, w' (f a) (f b) = w a b) {a b : α} {p : List α} {c : Rat} (hp : WalkOf w' (f a) (f b) (p.map f) c) : WalkOf w a b p c := by
  obtain ⟨h1, h2, h3⟩ := hp
  refine ⟨?_, ?_, by rw [← walkCost_renamed h, h3]⟩
  · rw [List.head?_map] at h1
    cases hh : p.head? with
    | none => rw [hh] at h1; cases h1
    | some x => rw [hh] at h1; simp only [Option.map_some, Option.some.injEq] at h1; rw [hf _ _ h1]
  · rw [List.getLast?_map] at h2
    cases hh : p.getLast? with
    | none => rw [hh] at h2; cases h2
    | some x => rw [hh] at h2; simp only [Option.map_some, Option.some.injEq] at h2; rw [hf _ _ h2]

theorem WalkOf.mem_of_edges {w : α → α → Option Rat} {N : α → Prop} (he : ∀ x y c, w x y = some c → N x ∧ N y) {a b : α} {p : List α} {c : Rat}
    (ha : N a) (hp : WalkOf w a b p c) : ∀ x ∈ p, N x := by
  induction p generalizing a c with
  | nil => exact absurd rfl hp.ne_nil
  | cons x p ih =>
    rcases hp.inv with ⟨h1, rfl, rfl⟩ | ⟨z, q', c1, c2, h1, h2, h3, rfl⟩
    · cases h1; intro y hy; simp at hy; subst hy; exact ha
    · cases h1
      intro y hy
      rcases List.mem_cons.1 hy with rfl | hy
      · exact ha
      · exact ih (he _ _ _ h2).2 h3 y hy

theorem IsDist.renamed {f : α → β} {N : α → Prop} {N' : β → Prop} {w : α → α → Option Rat} {w' : β → β → Option Rat} (h : Renamed f N N' w w')
    (he : ∀ x y c, w' x y = some c → N' x ∧ N' y) {a b : α} (ha : N a) {d : Ext} (hd : IsDist w a b d) : IsDist w' (f a) (f b) d := by
  have lift : ∀ p c, WalkOf w' (f a) (f b) p c → ∃ q, WalkOf w a b q c := by
    intro p c hp
    have hm := hp.mem_of_edges he ((h.nodes _).2 ⟨a, ha, rfl⟩)
    obtain ⟨q, rfl⟩ := exists_preimage (f := f) p (fun y hy => by obtain ⟨x, _, hx⟩ := (h.nodes y).1 (hm y hy); exact ⟨x, hx⟩)
    exact ⟨q, hp.unrenamed h.inj h.edges⟩
  cases d with
  | inf => rintro ⟨p, c, hp⟩; obtain ⟨q, hq⟩ := lift p c hp; exact hd ⟨q, c, hq⟩
  | fin c =>
    obtain ⟨⟨p, hp⟩, h2⟩ := hd
    exact ⟨⟨_, hp.renamed h.edges⟩, fun p c hp => by obtain ⟨q, hq⟩ := lift p c hp; exact h2 q c hq⟩

theorem Steps.renamed {f : α → β} {R : α → α → Prop} {S : β → β → Prop} (h : ∀ a b, S (f a) (f b) ↔ R a b) {n : Nat} {a b : α}
    (hs : Steps R n a b) : Steps S n (f a) (f b) := by
  induction hs with
  | zero => exact .zero _
  | succ _ h2 ih => exact .succ ih ((h _ _).2 h2)

theorem Steps.unrenamed {f : α → β} (hf : ∀ x y, f x = f y → x = y) {R : α → α → Prop} {S : β → β → Prop} (h : ∀ a b, S (f a) (f b) ↔ R a b)
    (hc : ∀ x y, S (f x) y → ∃ z, f z = y) {n : Nat} {a b : α} (hs : Steps S n (f a) (f b)) : Steps R n a b := by
  induction n generalizing a with
  | zero =>
    have e : f a = f b := by
      generalize f b = y at hs
      cases hs; rfl
    cases hf _ _ e; exact .zero _
  | succ n ih =>
    obtain ⟨y, h1, h2⟩ := hs.head
    obtain ⟨z, rfl⟩ := hc _ _ h1
    exact .cons ((h _ _).1 h1) (ih h2)

/-! ### reversed and scaled networks -/

theorem WalkOf.reversed {w w' : α → α → Option Rat} (h : ∀ a b, w' a b = w b a) {a b : α} {p : List α} {c : Rat} (hp : WalkOf w a b p c) :
    ∃ q, WalkOf w' b a q c := by
  induction p generalizing a c with
  | nil => exact absurd rfl hp.ne_nil
  | cons x p ih =>
    rcases hp.inv with ⟨h1, rfl, rfl⟩ | ⟨z, q', c1, c2, h1, h2, h3, rfl⟩
    · exact ⟨_, WalkOf.single _⟩
    · cases h1
      obtain ⟨q'', h4⟩ := ih h3
      have h5 : WalkOf w' z x (z :: [x]) (c1 + 0) := WalkOf.cons ((h z x).trans h2) (WalkOf.single x)
      have := h4.append h5
      rw [Rat.add_zero, Rat.add_comm] at this
      exact ⟨_, this⟩

theorem IsDist.reversed {w w' : α → α → Option Rat} (h : ∀ a b, w' a b = w b a) {a b : α} {d : Ext} (hd : IsDist w a b d) : IsDist w' b a d := by
  have h' : ∀ a b, w a b = w' b a := fun a b => (h b a).symm
  cases d with
  | inf => rintro ⟨p, c, hp⟩; obtain ⟨q, hq⟩ := hp.reversed h'; exact hd ⟨q, c, hq⟩
  | fin c =>
    obtain ⟨⟨p, hp⟩, h2⟩ := hd
    exact ⟨hp.reversed h, fun p c hp => by obtain ⟨q, hq⟩ := hp.reversed h'; exact h2 q c hq⟩

theorem walkCost_scaled {k : Rat} {w w' : α → α → Option Rat} (h : ∀ a b, w' a b = (w a b).map (k * ·)) (p : List α) :
    walkCost w' p = (walkCost w p).map (k * ·) := by
  induction p with
  | nil => rfl
  | cons a l ih =>
    cases l with
    | nil => simp [walkCost]
    | cons b l =>
      simp only [walkCost, h, ih]
      cases w a b with
      | none => rfl
      | some c =>
        cases walkCost w (b :: l) with
        | none => rfl
        | some d => simp only [Option.map_some]; congr 1; grind

theorem IsDist.scaled {k : Rat} (hk : 0 < k) {w w' : α → α → Option Rat} (h : ∀ a b, w' a b = (w a b).map (k * ·)) {a b : α} {d : Ext}
    (hd : IsDist w a b d) : IsDist w' a b (d.scale k) := by
  have back : ∀ p c, WalkOf w' a b p c → ∃ c0, WalkOf w a b p c0 ∧ c = k * c0 := by
    rintro p c ⟨h1, h2, h3⟩
    rw [walkCost_scaled h] at h3
    cases hc : walkCost w p with
    | none => rw [hc] at h3; cases h3
    | some c0 => rw [hc] at h3; simp at h3; exact ⟨c0, ⟨h1, h2, hc⟩, h3.symm⟩
  cases d with
  | inf => rintro ⟨p, c, hp⟩; obtain ⟨c0, hq, _⟩ := back p c hp; exact hd ⟨p, c0, hq⟩
  | fin c =>
    obtain ⟨⟨p, h1, h2, h3⟩, h4⟩ := hd
    refine ⟨⟨p, h1, h2, by rw [walkCost_scaled h, h3]; rfl⟩, fun p c hp => ?_⟩
    obtain ⟨c0, hq, rfl⟩ := back p c hp
    exact Rat.mul_le_mul_of_nonneg_left (h4 p c0 hq) (Rat.le_of_lt hk)

end GT
