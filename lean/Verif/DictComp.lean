import Verif.Py
/- Dict comprehensions. -/
namespace GT
namespace Dict
variable {K V : Type} [DecidableEq K]

/-- `{k: f(k) for k in l}` -/
def comp (l : List K) (f : K → V) : Dict K V := l.foldl (fun d k => d.set k (f k)) Dict.empty

theorem comp_fold_get? (f : K → V) (l : List K) : ∀ (d : Dict K V) (k : K),
    (l.foldl (fun d k => d.set k (f k)) d).get? k = if k ∈ l then some (f k) else d.get? k := by
  induction l with
  | nil => intro d k; simp
  | cons a l ih =>
    intro d k
    rw [List.foldl_cons, ih, get?_set]
    by_cases h : k ∈ l
    · simp [h]
    · by_cases h2 : a = k
      · subst h2; simp
      · have h3 : ¬ k = a := fun h => h2 h.symm
        simp [h, h2, h3]

theorem comp_get? (l : List K) (f : K → V) (k : K) : (comp l f).get? k = if k ∈ l then some (f k) else none := by
  unfold comp; rw [comp_fold_get?]; rfl

theorem comp_fold_items (f : K → V) (l : List K) : ∀ (d : Dict K V), l.Nodup → (∀ k ∈ l, k ∉ d.keys) →
    (l.foldl (fun d k => d.set k (f k)) d).items = d.items ++ l.map (fun k => (k, f k)) := by
  induction l with
  | nil => intro d _ _; simp
  | cons a l ih =>
    intro d hn hd
    rw [List.nodup_cons] at hn
    rw [List.foldl_cons, ih _ hn.2, items_set_of_not_mem _ (hd a (by simp))]
    · simp
    · intro k hk hk2
      rcases (mem_keys_set _ _ _ _).1 hk2 with h | h
      · subst h; exact hn.1 hk
      · exact hd k (List.mem_cons_of_mem _ hk) h

theorem comp_items {l : List K} (hl : l.Nodup) (f : K → V) : (comp l f).items = l.map (fun k => (k, f k)) := by
  unfold comp; rw [comp_fold_items f l _ hl (by simp [keys, Dict.empty])]; rfl

theorem comp_keys {l : List K} (hl : l.Nodup) (f : K → V) : (comp l f).keys = l := by
  unfold keys; rw [comp_items hl, List.map_map]; exact List.map_id _

theorem comp_values {l : List K} (hl : l.Nodup) (f : K → V) : (comp l f).values = l.map f := by
  unfold values; rw [comp_items hl, List.map_map]; rfl

end Dict
end GT
