import Verif.Py

/-!
# Dictionaries
-/

set_option autoImplicit false

namespace Estrade.Dict
variable {β : Type}

theorem get?_eq_none (d : Dict β) (k : String) : d.get? k = none ↔ k ∉ d.keys := by
  unfold get? keys
  rw [Option.map_eq_none_iff, List.find?_eq_none]
  simp only [beq_iff_eq, List.mem_map, not_exists, not_and]

theorem get?_isSome (d : Dict β) (k : String) : (∃ v, d.get? k = some v) ↔ k ∈ d.keys := by
  rw [← not_iff_not, ← get?_eq_none]
  cases d.get? k <;> simp

theorem any_key (d : Dict β) (k : String) : d.any (fun p => p.1 == k) = true ↔ k ∈ d.keys := by
  unfold keys
  rw [List.any_eq_true, List.mem_map]
  simp only [beq_iff_eq]

theorem set_new (d : Dict β) (k : String) (v : β) (h : d.get? k = none) : d.set k v = d ++ [(k, v)] := by
  have : ¬ d.any (fun p => p.1 == k) = true := by rw [any_key]; exact (get?_eq_none d k).mp h
  unfold Dict.set
  rw [if_neg this]

theorem get?_cons (p : String × β) (d : Dict β) (k : String) :
    get? (p :: d) k = if p.1 = k then some p.2 else get? d k := by
  unfold get?
  rw [List.find?_cons]
  by_cases h : p.1 = k
  · simp [h]
  · have : (p.1 == k) = false := by simpa using h
    simp [h, this]

theorem get?_append_single (d : Dict β) (k k' : String) (v : β) :
    get? (d ++ [(k, v)]) k' = match d.get? k' with | some x => some x | none => if k = k' then some v else none := by
  induction d with
  | nil => simp [get?_cons]; rfl
  | cons p d ih =>
    rw [List.cons_append, get?_cons, get?_cons, ih]
    split_ifs <;> rfl

theorem get?_map_set (d : Dict β) (k k' : String) (v : β) :
    get? (d.map (fun p => if p.1 == k then (k, v) else p)) k' =
      if k = k' then (d.get? k).map (fun _ => v) else d.get? k' := by
  induction d with
  | nil => simp [get?]
  | cons p d ih =>
    rw [List.map_cons, get?_cons, ih, get?_cons, get?_cons]
    by_cases h : p.1 = k
    · subst h
      by_cases h' : p.1 = k'
      · simp [h']
      · simp [h']
    · have hb : (p.1 == k) = false := by simpa using h
      rw [hb]
      simp only [Bool.false_eq_true, if_false]
      by_cases h' : k = k'
      · subst h'; simp [h]
      · by_cases h2 : p.1 = k'
        · simp [h', h2]
        · simp [h', h2]

theorem get?_set (d : Dict β) (k k' : String) (v : β) :
    (d.set k v).get? k' = if k = k' then some v else d.get? k' := by
  unfold Dict.set
  split_ifs with ha h h
  · rw [get?_map_set, if_pos h]
    obtain ⟨x, hx⟩ := (get?_isSome d k).mpr ((any_key d k).mp ha)
    rw [hx]; rfl
  · rw [get?_map_set, if_neg h]
  · subst h
    have : d.get? k = none := (get?_eq_none d k).mpr (fun hk => ha ((any_key d k).mpr hk))
    rw [get?_append_single, this]; simp
  · rw [get?_append_single]
    cases d.get? k' <;> simp [h]

theorem keys_set (d : Dict β) (k : String) (v : β) :
    (d.set k v).keys = if k ∈ d.keys then d.keys else d.keys ++ [k] := by
  unfold Dict.set
  by_cases h : d.any (fun p => p.1 == k) = true
  · rw [if_pos h, if_pos ((any_key d k).mp h)]
    unfold keys
    rw [List.map_map]
    apply List.map_congr_left
    intro p _
    by_cases hp : p.1 = k
    · simp [hp]
    · simp [hp]
  · rw [if_neg h, if_neg (fun hk => h ((any_key d k).mpr hk))]
    simp [keys]

theorem keys_set_nodup (d : Dict β) (k : String) (v : β) (h : d.keys.Nodup) : (d.set k v).keys.Nodup := by
  rw [keys_set]
  split_ifs with hk
  · exact h
  · rw [List.nodup_append]
    exact ⟨h, by simp, by rintro a ha b hb rfl; exact hk (by rwa [List.mem_singleton.mp hb] at ha)⟩

theorem mem_of_get? {d : Dict β} {k : String} {v : β} (h : d.get? k = some v) : (k, v) ∈ d := by
  unfold get? at h
  rw [Option.map_eq_some_iff] at h
  obtain ⟨⟨a, b⟩, h1, h2⟩ := h
  have := List.find?_some h1
  simp only [beq_iff_eq] at this
  simp only at h2
  subst this h2
  exact List.mem_of_find?_eq_some h1

theorem get?_of_mem {d : Dict β} {k : String} {v : β} (hd : d.keys.Nodup) (h : (k, v) ∈ d) :
    d.get? k = some v := by
  induction d with
  | nil => cases h
  | cons p d ih =>
    rw [get?_cons]
    simp only [keys, List.map_cons, List.nodup_cons] at hd
    rcases List.mem_cons.mp h with rfl | h
    · simp
    · have hne : p.1 ≠ k := fun e => hd.1 (by rw [e]; exact List.mem_map_of_mem (f := Prod.fst) h)
      rw [if_neg hne]
      exact ih hd.2 h

theorem set_map {α β : Type} (g : α → β) (d : Dict α) (r : String) (v : α) :
    Dict.set (d.map (fun p => (p.1, g p.2))) r (g v) = (Dict.set d r v).map (fun p => (p.1, g p.2)) := by
  unfold Dict.set
  have h : (d.map (fun p => (p.1, g p.2))).any (fun p => p.1 == r) = d.any (fun p => p.1 == r) := by
    rw [List.any_map]; rfl
  rw [h]
  split
  · rw [List.map_map, List.map_map]
    refine List.map_congr_left fun p _ => ?_
    simp only [Function.comp]
    split <;> rfl
  · simp

theorem get?_map {α β : Type} (g : α → β) (d : Dict α) (k : String) :
    get? (d.map (fun p => (p.1, g p.2))) k = (d.get? k).map g := by
  induction d with
  | nil => rfl
  | cons p d ih =>
    rw [List.map_cons, get?_cons, get?_cons, ih]
    split_ifs <;> rfl

theorem get?_rename {γ : Type} {f : String → String} (hf : Function.Injective f) (g : β → γ) (d : Dict β) (k : String) :
    Dict.get? (d.map (fun p => (f p.1, g p.2))) (f k) = (d.get? k).map g := by
  induction d with
  | nil => rfl
  | cons p d ih =>
    rw [List.map_cons, get?_cons, get?_cons, ih]
    simp only [hf.eq_iff]
    split_ifs <;> rfl

theorem set_rename {γ : Type} {f : String → String} (hf : Function.Injective f) (g : β → γ) (d : Dict β) (k : String) (v : β) :
    Dict.set (d.map (fun p => (f p.1, g p.2))) (f k) (g v) = (d.set k v).map (fun p => (f p.1, g p.2)) := by
  have hb : ∀ p : String × β, (f p.1 == f k) = (p.1 == k) := by
    intro p
    rw [Bool.eq_iff_iff, beq_iff_eq, beq_iff_eq, hf.eq_iff]
  have ha : (d.map (fun p => (f p.1, g p.2))).any (fun p => p.1 == f k) = d.any (fun p => p.1 == k) := by
    rw [List.any_map]
    congr 1
    funext p
    exact hb p
  unfold Dict.set
  rw [ha]
  split_ifs
  · rw [List.map_map, List.map_map]
    refine List.map_congr_left fun p _ => ?_
    simp only [Function.comp, hb]
    split_ifs <;> rfl
  · simp

theorem set_renameKeys {f : String → String} (hf : Function.Injective f) (d : Dict β) (k : String) (v : β) :
    Dict.set (d.map (fun p => (f p.1, p.2))) (f k) v = (d.set k v).map (fun p => (f p.1, p.2)) :=
  set_rename hf id d k v

end Estrade.Dict
