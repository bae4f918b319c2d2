import Verif.Meta
import Verif.Lemmas.Dicts
import Mathlib.Data.List.Basic

/-!
# C115: the meta dictionary of a transaction
-/

set_option autoImplicit false

namespace Estrade

/-! ## Specification -/

/-- Spec: whose dictionary: one of the program, or that of an object. -/
inductive Spec.Holder
  | program (d : ℕ)
  | object (i : ℕ)
deriving DecidableEq

/-- Spec: the keys a history speaks of. -/
def Spec.keysOf : List MetaCmd → List String
  | [] => []
  | .putObj _ k _ :: h => k :: Spec.keysOf h
  | .putDict _ k _ :: h => k :: Spec.keysOf h
  | _ :: h => Spec.keysOf h

/-- Spec: of a history, latest command first: the holder of the meta of each object, and what was last put for a holder under a key. An object shares the
dictionary given to its constructor if there is something in it at that time, and has its own otherwise. -/
def Spec.account : List MetaCmd → List Spec.Holder × (Spec.Holder → String → Option String)
  | [] => ([], fun _ _ => none)
  | .dict :: h => Spec.account h
  | .create none :: h => ((Spec.account h).1 ++ [.object (Spec.account h).1.length], (Spec.account h).2)
  | .create (some d) :: h =>
    ((Spec.account h).1 ++ [if (Spec.keysOf h).all (fun k => ((Spec.account h).2 (.program d) k).isNone) then .object (Spec.account h).1.length
      else .program d], (Spec.account h).2)
  | .putObj i k v :: h =>
    ((Spec.account h).1, fun x k' => if k' = k ∧ (Spec.account h).1[i]? = some x then v else (Spec.account h).2 x k')
  | .putDict d k v :: h => ((Spec.account h).1, fun x k' => if k' = k ∧ x = .program d then v else (Spec.account h).2 x k')

/-- Spec: what was last put under `k` through the holder itself, or else `v`. -/
def Spec.lastPut (x : Spec.Holder) (k : String) (v : Option String) : List MetaCmd → Option String
  | [] => v
  | .putObj i k' y :: l => Spec.lastPut x k (if x = .object i ∧ k' = k then y else v) l
  | .putDict d k' y :: l => Spec.lastPut x k (if x = .program d ∧ k' = k then y else v) l
  | _ :: l => Spec.lastPut x k v l

/-- Spec: the number of objects made by a program. -/
def Spec.created (l : List MetaCmd) : ℕ := l.countP (fun c => match c with | .create _ => true | _ => false)

/-- Spec: C115 for programs that do nothing but `ok` before and after the constructor: what was last put through the object is found there, or else what was in the dictionary
given to its constructor. -/
def Spec.C115 (ok : List MetaCmd → Option ℕ → List MetaCmd → Prop) : Prop :=
  ∀ (l1 : List MetaCmd) (g : Option ℕ) (l2 : List MetaCmd) (m : Metas), Metas.start.run (l1 ++ .create g :: l2) = some m → ok l1 g l2 → ∀ k,
    m.read (Spec.created l1) k = Spec.lastPut (.object (Spec.created l1)) k (g.bind (fun d => (Spec.account l1.reverse).2 (.program d) k)) l2

/-- Spec: the dictionary given to the constructor is given to no other one, and the program does not write to it afterwards. -/
def Spec.OnlyFor (l1 : List MetaCmd) (g : Option ℕ) (l2 : List MetaCmd) : Prop :=
  ∀ d, g = some d → .create (some d) ∉ l1 ∧ .create (some d) ∉ l2 ∧ ∀ k v, .putDict d k v ∉ l2

/-- Spec: there is nothing in the dictionary given to the constructor, or none is given. -/
def Spec.Blank (l1 : List MetaCmd) (g : Option ℕ) (_ : List MetaCmd) : Prop :=
  ∀ d, g = some d → ∀ k, (Spec.account l1.reverse).2 (.program d) k = none

/-! ## Dictionaries -/

theorem get?_filter_ne (D : Dict String) (k k' : String) : Dict.get? (D.filter (fun p => p.1 != k)) k' = if k' = k then none else D.get? k' := by
  unfold Dict.get?
  induction D with
  | nil => simp
  | cons p D ih =>
    by_cases hp : p.1 = k
    · rw [List.filter_cons_of_neg (by simp [hp]), ih]
      by_cases hk : k' = k
      · simp [hk]
      · rw [if_neg hk, if_neg hk, List.find?_cons_of_neg (by simp [hp]; exact fun h => hk h.symm)]
    · rw [List.filter_cons_of_pos (by simp [hp])]
      by_cases hk : p.1 = k'
      · have hkk : k' ≠ k := fun h => hp (hk.trans h)
        rw [List.find?_cons_of_pos (by simp [hk]), List.find?_cons_of_pos (by simp [hk]), if_neg hkk]
      · rw [List.find?_cons_of_neg (by simp [hk]), List.find?_cons_of_neg (by simp [hk]), ih]

theorem get?_putKey (D : Dict String) (k k' : String) (v : Option String) : (putKey k v D).get? k' = if k' = k then v else D.get? k' := by
  cases v with
  | none => exact get?_filter_ne D k k'
  | some v =>
    show (D.set k v).get? k' = _
    rw [Dict.get?_set]
    simp only [eq_comm]

theorem isEmpty_iff_get? (D : Dict String) : D.isEmpty = true ↔ ∀ k, D.get? k = none := by
  cases D with
  | nil => simp [Dict.get?]
  | cons p D =>
    simp only [List.isEmpty_cons, Bool.false_eq_true, false_iff, not_forall]
    exact ⟨p.1, by simp [Dict.get?]⟩

/-! ## The heap and the account -/

/-- The holder `H[r]` of each dictionary `r` of the heap. -/
structure Books (m : Metas) (h : List MetaCmd) (H : List Spec.Holder) : Prop where
  nodup : H.Nodup
  size : H.length = m.dicts.length
  given : ∀ (d r : ℕ), m.given[d]? = some r → H[r]? = some (.program d)
  len : (Spec.account h).1.length = m.objs.length
  objs : ∀ (i r : ℕ), m.objs[i]? = some r → ∃ x, H[r]? = some x ∧ (Spec.account h).1[i]? = some x
  text : ∀ (r : ℕ) x D, H[r]? = some x → m.dicts[r]? = some D → ∀ k, D.get? k = (Spec.account h).2 x k
  blank : ∀ x, x ∉ H → ∀ k, (Spec.account h).2 x k = none
  keys : ∀ x k, (Spec.account h).2 x k ≠ none → k ∈ Spec.keysOf h
  program : ∀ d, .program d ∈ H → d < m.given.length
  object : ∀ i, .object i ∈ H → i < m.objs.length

theorem getElem?_snoc_lt {α : Type} {l : List α} {i : ℕ} {x y : α} (h : l[i]? = some x) : (l ++ [y])[i]? = some x := by
  rw [List.getElem?_append_left (List.getElem?_eq_some_iff.mp h).1]; exact h

theorem getElem?_snoc {α : Type} {l : List α} {i : ℕ} {x y : α} (h : (l ++ [y])[i]? = some x) : l[i]? = some x ∨ i = l.length ∧ x = y := by
  rcases Nat.lt_trichotomy i l.length with hi | hi | hi
  · rw [List.getElem?_append_left hi] at h; exact .inl h
  · subst hi; rw [List.getElem?_concat_length] at h; exact .inr ⟨rfl, (Option.some.inj h).symm⟩
  · rw [List.getElem?_eq_none (by simp; omega)] at h; cases h

theorem getElem?_nodup {α : Type} {l : List α} (h : l.Nodup) {i j : ℕ} {x : α} (hi : l[i]? = some x) (hj : l[j]? = some x) : i = j := by
  obtain ⟨a, ha⟩ := List.getElem?_eq_some_iff.mp hi
  obtain ⟨b, hb⟩ := List.getElem?_eq_some_iff.mp hj
  exact (List.Nodup.getElem_inj_iff h).mp (ha.trans hb.symm)

theorem books_put {m : Metas} {h : List MetaCmd} {H : List Spec.Holder} (hb : Books m h H) {c : MetaCmd} {r : ℕ} {x : Spec.Holder} {k : String}
    {v : Option String} (hr : H[r]? = some x) (h1 : (Spec.account (c :: h)).1 = (Spec.account h).1)
    (h2 : ∀ y k', (Spec.account (c :: h)).2 y k' = if k' = k ∧ y = x then v else (Spec.account h).2 y k')
    (h3 : Spec.keysOf (c :: h) = k :: Spec.keysOf h) : Books { m with dicts := m.dicts.modify r (putKey k v) } (c :: h) H := by
  refine ⟨hb.nodup, by rw [List.length_modify]; exact hb.size, hb.given, by rw [h1]; exact hb.len, by rw [h1]; exact hb.objs, ?_, ?_, ?_, hb.program,
    hb.object⟩
  · intro r' y D hy hD k'
    rw [h2]
    simp only [List.getElem?_modify] at hD
    by_cases hrr : r = r'
    · subst hrr
      have hyx : y = x := Option.some.inj (hy.symm.trans hr)
      subst hyx
      rcases hD0 : m.dicts[r]? with _ | D0
      · rw [hD0] at hD; simp at hD
      · rw [hD0] at hD
        simp only [if_true, Option.map_eq_map, Option.map_some, Option.some.injEq] at hD
        rw [← hD, get?_putKey]
        simp only [and_true]
        rw [hb.text r y D0 hy hD0 k']
    · have hne : y ≠ x := fun e => hrr (getElem?_nodup hb.nodup hr (e ▸ hy))
      rw [if_neg (fun e => hne e.2)]
      simp only [if_neg hrr, Option.map_eq_map, Option.map_id'] at hD
      exact hb.text r' y D hy hD k'
  · intro y hy k'
    rw [h2, if_neg (fun e => hy (by rw [e.2]; exact List.mem_of_getElem? hr))]
    exact hb.blank y hy k'
  · intro y k' hk
    rw [h3]
    rw [h2] at hk
    split_ifs at hk with he
    · rw [he.1]; exact List.mem_cons_self
    · exact List.mem_cons_of_mem _ (hb.keys y k' hk)

/-- A new dictionary, of the program or of an object. -/
theorem text_new {m : Metas} {h : List MetaCmd} {H : List Spec.Holder} (hb : Books m h H) {z : Spec.Holder} (hz : z ∉ H) (r : ℕ) (x : Spec.Holder)
    (D : Dict String) (hx : (H ++ [z])[r]? = some x) (hD : (m.dicts ++ [[]])[r]? = some D) (k : String) : D.get? k = (Spec.account h).2 x k := by
  rcases getElem?_snoc hx with hx' | ⟨hr, rfl⟩
  · rcases getElem?_snoc hD with hD' | ⟨hr, rfl⟩
    · exact hb.text r x D hx' hD' k
    · have := (List.getElem?_eq_some_iff.mp hx').1
      have := hb.size
      omega
  · rw [hr, hb.size, List.getElem?_concat_length] at hD
    rw [← Option.some.inj hD, hb.blank _ hz]
    rfl

theorem books_dict {m : Metas} {h : List MetaCmd} {H : List Spec.Holder} (hb : Books m h H) :
    Books { m with dicts := m.dicts ++ [[]], given := m.given ++ [m.dicts.length] } (.dict :: h) (H ++ [.program m.given.length]) := by
  have hz : Spec.Holder.program m.given.length ∉ H := fun e => absurd (hb.program _ e) (lt_irrefl _)
  refine ⟨?_, by simp [hb.size], ?_, hb.len, ?_, text_new hb hz, ?_, hb.keys, ?_, ?_⟩
  · exact List.nodup_append.mpr ⟨hb.nodup, List.nodup_singleton _, fun a ha b hb' => by rw [List.mem_singleton.mp hb']; exact fun e => hz (e ▸ ha)⟩
  · intro d r hd
    rcases getElem?_snoc hd with hd | ⟨rfl, rfl⟩
    · exact getElem?_snoc_lt (hb.given d r hd)
    · rw [← hb.size]; exact List.getElem?_concat_length
  · intro i r hi
    obtain ⟨x, a, b⟩ := hb.objs i r hi
    exact ⟨x, getElem?_snoc_lt a, b⟩
  · exact fun x hx k => hb.blank x (fun e => hx (List.mem_append_left _ e)) k
  · intro d hd
    rw [List.length_append]
    rcases List.mem_append.mp hd with hd | hd
    · exact Nat.lt_add_right _ (hb.program d hd)
    · rw [List.mem_singleton] at hd; injection hd with hd; simp [hd]
  · intro i hi
    rcases List.mem_append.mp hi with hi | hi
    · exact hb.object i hi
    · simp at hi

theorem books_fresh {m : Metas} {h : List MetaCmd} {H : List Spec.Holder} (hb : Books m h H) {c : MetaCmd}
    (h1 : (Spec.account (c :: h)).1 = (Spec.account h).1 ++ [.object (Spec.account h).1.length]) (h2 : (Spec.account (c :: h)).2 = (Spec.account h).2)
    (h3 : Spec.keysOf (c :: h) = Spec.keysOf h) : Books m.fresh (c :: h) (H ++ [.object m.objs.length]) := by
  have hz : Spec.Holder.object m.objs.length ∉ H := fun e => absurd (hb.object _ e) (lt_irrefl _)
  unfold Metas.fresh
  refine ⟨?_, by simp [hb.size], ?_, by rw [h1]; simp [hb.len], ?_, by rw [h2]; exact text_new hb hz, ?_, by rw [h2, h3]; exact hb.keys, ?_, ?_⟩
  · exact List.nodup_append.mpr ⟨hb.nodup, List.nodup_singleton _, fun a ha b hb' => by rw [List.mem_singleton.mp hb']; exact fun e => hz (e ▸ ha)⟩
  · exact fun d r hd => getElem?_snoc_lt (hb.given d r hd)
  · intro i r hi
    rw [h1]
    rcases getElem?_snoc hi with hi | ⟨rfl, rfl⟩
    · obtain ⟨x, a, b⟩ := hb.objs i r hi
      exact ⟨x, getElem?_snoc_lt a, getElem?_snoc_lt b⟩
    · refine ⟨.object m.objs.length, ?_, ?_⟩
      · rw [← hb.size]; exact List.getElem?_concat_length
      · rw [← hb.len]; exact List.getElem?_concat_length
  · rw [h2]
    exact fun x hx k => hb.blank x (fun e => hx (List.mem_append_left _ e)) k
  · intro d hd
    rcases List.mem_append.mp hd with hd | hd
    · exact hb.program d hd
    · simp at hd
  · intro i hi
    rw [List.length_append]
    rcases List.mem_append.mp hi with hi | hi
    · exact Nat.lt_add_right _ (hb.object i hi)
    · rw [List.mem_singleton] at hi; injection hi with hi; simp [hi]

theorem blank_iff {m : Metas} {h : List MetaCmd} {H : List Spec.Holder} (hb : Books m h H) {d r : ℕ} {D : Dict String} (hd : m.given[d]? = some r)
    (hD : m.dicts[r]? = some D) : (Spec.keysOf h).all (fun k => ((Spec.account h).2 (.program d) k).isNone) = D.isEmpty := by
  rw [Bool.eq_iff_iff, isEmpty_iff_get?, List.all_eq_true]
  constructor
  · intro ha k
    rw [hb.text r _ D (hb.given d r hd) hD]
    by_contra hk
    exact hk (by simpa using ha k (hb.keys _ k hk))
  · intro ha k _
    rw [← hb.text r _ D (hb.given d r hd) hD, ha k]
    rfl

theorem books_step {m m' : Metas} {h : List MetaCmd} {H : List Spec.Holder} (hb : Books m h H) (c : MetaCmd) (hs : m.step c = some m') :
    ∃ H', Books m' (c :: h) H' := by
  cases c with
  | dict =>
    injection hs with hs
    exact ⟨_, hs ▸ books_dict hb⟩
  | create g =>
    cases g with
    | none =>
      injection hs with hs
      exact ⟨_, hs ▸ books_fresh hb rfl rfl rfl⟩
    | some d =>
      change m.init (some d) = some m' at hs
      unfold Metas.init at hs
      rcases hd : m.given[d]? with _ | r
      · simp [hd] at hs
      rcases hD : m.dicts[r]? with _ | D
      · simp [hd, hD] at hs
      simp only [hd, hD] at hs
      have hbl := blank_iff hb hd hD
      split_ifs at hs with he
      · injection hs with hs
        rw [he] at hbl
        exact ⟨_, hs ▸ books_fresh hb (by simp only [Spec.account]; rw [if_pos hbl]) rfl rfl⟩
      · injection hs with hs
        rw [Bool.not_eq_true] at he
        rw [he] at hbl
        have h1 : (Spec.account (.create (some d) :: h)).1 = (Spec.account h).1 ++ [.program d] := by
          simp only [Spec.account]
          rw [if_neg (by rw [hbl]; decide)]
        subst hs
        refine ⟨H, hb.nodup, hb.size, hb.given, by rw [h1]; simp [hb.len], ?_, hb.text, hb.blank, hb.keys, hb.program, ?_⟩
        · intro i x hi
          rw [h1]
          rcases getElem?_snoc hi with hi | ⟨rfl, rfl⟩
          · obtain ⟨x, a, b⟩ := hb.objs i _ hi
            exact ⟨x, a, getElem?_snoc_lt b⟩
          · exact ⟨_, hb.given d _ hd, by rw [← hb.len]; exact List.getElem?_concat_length⟩
        · intro i hi
          rw [List.length_append]
          exact Nat.lt_add_right _ (hb.object i hi)
  | putObj i k v =>
    change (m.objs[i]?).map _ = some m' at hs
    rcases hi : m.objs[i]? with _ | r
    · rw [hi] at hs; cases hs
    rw [hi] at hs
    injection hs with hs
    obtain ⟨x, a, b⟩ := hb.objs i r hi
    refine ⟨H, hs ▸ books_put hb a rfl (fun y k' => ?_) rfl⟩
    show (if k' = k ∧ (Spec.account h).1[i]? = some y then v else _) = _
    rw [b]
    simp only [Option.some.injEq, eq_comm (a := x)]
  | putDict d k v =>
    change (m.given[d]?).map _ = some m' at hs
    rcases hd : m.given[d]? with _ | r
    · rw [hd] at hs; cases hs
    rw [hd] at hs
    injection hs with hs
    exact ⟨H, hs ▸ books_put hb (hb.given d r hd) rfl (fun _ _ => rfl) rfl⟩

theorem books_run (l : List MetaCmd) : ∀ {m m' : Metas} {h : List MetaCmd} {H : List Spec.Holder}, Books m h H → m.run l = some m' →
    ∃ H', Books m' (l.reverse ++ h) H' := by
  induction l with
  | nil => intro m m' h H hb hs; injection hs with hs; exact ⟨H, hs ▸ hb⟩
  | cons c l ih =>
    intro m m' h H hb hs
    change (m.step c).bind _ = some m' at hs
    rcases hc : m.step c with _ | m1
    · rw [hc] at hs; cases hs
    rw [hc] at hs
    obtain ⟨H1, h1⟩ := books_step hb c hc
    obtain ⟨H', h'⟩ := ih h1 hs
    exact ⟨H', by rw [List.reverse_cons, List.append_assoc]; exact h'⟩

theorem books_start : Books Metas.start [] [] :=
  ⟨List.nodup_nil, rfl, by simp [Metas.start], rfl, by simp [Metas.start], by simp, fun _ _ _ => rfl, fun _ _ h => absurd rfl h, by simp, by simp⟩

/-- **C115**: what is found under a key in the meta of an object is what was last put there for its holder, by whomever. -/
theorem C115_account {l : List MetaCmd} {m : Metas} (hl : Metas.start.run l = some m) (i : ℕ) (hi : i < m.objs.length) :
    ∃ x, (Spec.account l.reverse).1[i]? = some x ∧ ∀ k, m.read i k = (Spec.account l.reverse).2 x k := by
  obtain ⟨H, hb⟩ := books_run l books_start hl
  rw [List.append_nil] at hb
  obtain ⟨x, a, b⟩ := hb.objs i _ (List.getElem?_eq_getElem hi)
  refine ⟨x, b, fun k => ?_⟩
  have hr : m.objs[i] < m.dicts.length := by rw [← hb.size]; exact (List.getElem?_eq_some_iff.mp a).1
  unfold Metas.read
  rw [List.getElem?_eq_getElem hi]
  show (m.dicts[m.objs[i]]?).bind _ = _
  rw [List.getElem?_eq_getElem hr]
  exact hb.text _ x _ a (List.getElem?_eq_getElem hr) k

/-! ## One object -/

theorem account_len (h : List MetaCmd) : (Spec.account h).1.length = Spec.created h := by
  induction h with
  | nil => rfl
  | cons c h ih =>
    unfold Spec.created at *
    cases c with
    | dict => exact ih
    | create g => cases g <;> simp [Spec.account, ih]
    | putObj => exact ih
    | putDict => exact ih

theorem created_reverse (l : List MetaCmd) : Spec.created l.reverse = Spec.created l := List.countP_reverse

/-- Where holders come from. -/
theorem holder_pos (h : List MetaCmd) : ∀ {j : ℕ} {x : Spec.Holder}, (Spec.account h).1[j]? = some x →
    x = .object j ∨ ∃ d, x = .program d ∧ .create (some d) ∈ h := by
  induction h with
  | nil => intro j x hx; cases hx
  | cons c h ih =>
    have weak : ∀ {j : ℕ} {x : Spec.Holder}, (Spec.account h).1[j]? = some x → x = .object j ∨ ∃ d, x = .program d ∧ .create (some d) ∈ c :: h := by
      intro j x hx
      rcases ih hx with e | ⟨d, e, hd⟩
      · exact .inl e
      · exact .inr ⟨d, e, List.mem_cons_of_mem _ hd⟩
    intro j x hx
    cases c with
    | dict => exact weak hx
    | create g =>
      cases g with
      | none =>
        rcases getElem?_snoc hx with hx | ⟨rfl, rfl⟩
        · exact weak hx
        · exact .inl rfl
      | some d =>
        rcases getElem?_snoc hx with hx | ⟨rfl, rfl⟩
        · exact weak hx
        · split_ifs
          · exact .inl rfl
          · exact .inr ⟨d, rfl, List.mem_cons_self⟩
    | putObj => exact weak hx
    | putDict => exact weak hx

theorem account_blank (h : List MetaCmd) {i : ℕ} (hi : (Spec.account h).1.length ≤ i) (k : String) : (Spec.account h).2 (.object i) k = none := by
  induction h with
  | nil => rfl
  | cons c h ih =>
    cases c with
    | dict => exact ih hi
    | create g =>
      cases g with
      | none => exact ih (by simp [Spec.account] at hi; omega)
      | some d => exact ih (by simp [Spec.account] at hi; omega)
    | putObj j k' v =>
      show (if _ then _ else _) = _
      rw [if_neg]
      · exact ih hi
      · rintro ⟨-, hj⟩
        rcases holder_pos h hj with e | ⟨d, e, -⟩
        · injection e with e
          subst e
          have := (List.getElem?_eq_some_iff.mp hj).1
          change (Spec.account h).1.length ≤ _ at hi
          omega
        · cases e
    | putDict d k' v =>
      show (if _ then _ else _) = _
      rw [if_neg (by rintro ⟨-, e⟩; cases e)]
      exact ih hi

/-- A dictionary that only one object uses. -/
theorem account_own (l : List MetaCmd) : ∀ (h : List MetaCmd) {i : ℕ} {x : Spec.Holder}, (Spec.account h).1[i]? = some x →
    (∀ j, (Spec.account h).1[j]? = some x → j = i) → (∀ d, x = .program d → .create (some d) ∉ l ∧ ∀ k v, .putDict d k v ∉ l) → ∀ k,
    (Spec.account (l.reverse ++ h)).1[i]? = some x ∧
    (Spec.account (l.reverse ++ h)).2 x k = Spec.lastPut (.object i) k ((Spec.account h).2 x k) l := by
  induction l with
  | nil => intro h i x hx _ _ k; exact ⟨hx, rfl⟩
  | cons c l ih =>
    intro h i x hx hu hn k
    rw [List.reverse_cons, List.append_assoc]
    have hn' : ∀ d, x = .program d → .create (some d) ∉ l ∧ ∀ k v, .putDict d k v ∉ l := fun d e =>
      ⟨fun hm => (hn d e).1 (List.mem_cons_of_mem _ hm), fun k v hm => (hn d e).2 k v (List.mem_cons_of_mem _ hm)⟩
    have hlt := (List.getElem?_eq_some_iff.mp hx).1
    have snoc : ∀ y, (x = y → False) → (∀ j, ((Spec.account h).1 ++ [y])[j]? = some x → j = i) := by
      intro y hy j hj
      rcases getElem?_snoc hj with hj | ⟨-, e⟩
      · exact hu j hj
      · exact (hy e).elim
    have new : x = .object (Spec.account h).1.length → False := by
      intro e
      rcases holder_pos h hx with e' | ⟨d, e', -⟩
      · rw [e'] at e; injection e with e; omega
      · rw [e'] at e; cases e
    cases c with
    | dict => exact ih (.dict :: h) hx hu hn' k
    | create g =>
      cases g with
      | none => exact ih (.create none :: h) (getElem?_snoc_lt hx) (snoc _ new) hn' k
      | some d =>
        refine ih (.create (some d) :: h) (getElem?_snoc_lt hx) (snoc _ ?_) hn' k
        split_ifs
        · exact new
        · exact fun e => (hn d e).1 List.mem_cons_self
    | putObj j k' v =>
      obtain ⟨a, b⟩ := ih (.putObj j k' v :: h) hx hu hn' k
      refine ⟨a, b.trans ?_⟩
      show Spec.lastPut _ k (if k = k' ∧ (Spec.account h).1[j]? = some x then v else _) l = Spec.lastPut _ k (if _ then v else _) l
      congr 1
      refine if_congr ?_ rfl rfl
      constructor
      · rintro ⟨e1, e2⟩
        exact ⟨by rw [hu j e2], e1.symm⟩
      · rintro ⟨e1, e2⟩
        injection e1 with e1
        exact ⟨e2.symm, e1 ▸ hx⟩
    | putDict d k' v =>
      obtain ⟨a, b⟩ := ih (.putDict d k' v :: h) hx hu hn' k
      refine ⟨a, b.trans ?_⟩
      show Spec.lastPut _ k (if k = k' ∧ x = .program d then v else _) l = Spec.lastPut _ k (if _ then v else _) l
      rw [if_neg, if_neg (by rintro ⟨e, -⟩; cases e)]
      rintro ⟨-, e⟩
      exact (hn d e).2 k' v List.mem_cons_self

theorem account_keys (h : List MetaCmd) {x : Spec.Holder} {k : String} (hk : (Spec.account h).2 x k ≠ none) : k ∈ Spec.keysOf h := by
  induction h with
  | nil => exact absurd rfl hk
  | cons c h ih =>
    cases c with
    | dict => exact ih hk
    | create g => cases g <;> exact ih hk
    | putObj j k' v =>
      change (if _ then _ else _) ≠ _ at hk
      split_ifs at hk with e
      · rw [e.1]; exact List.mem_cons_self
      · exact List.mem_cons_of_mem _ (ih hk)
    | putDict d k' v =>
      change (if _ then _ else _) ≠ _ at hk
      split_ifs at hk with e
      · rw [e.1]; exact List.mem_cons_self
      · exact List.mem_cons_of_mem _ (ih hk)

/-- The new object. -/
theorem account_new (h : List MetaCmd) (g : Option ℕ) : ∃ x, (Spec.account (.create g :: h)).1[(Spec.account h).1.length]? = some x ∧
    (Spec.account (.create g :: h)).2 = (Spec.account h).2 ∧
    ((x = .object (Spec.account h).1.length ∧ ∀ d, g = some d → ∀ k, (Spec.account h).2 (.program d) k = none) ∨
      ∃ d, g = some d ∧ x = .program d ∧ ∃ k, (Spec.account h).2 (.program d) k ≠ none) := by
  cases g with
  | none => exact ⟨_, List.getElem?_concat_length, rfl, .inl ⟨rfl, fun _ e => by cases e⟩⟩
  | some d =>
    refine ⟨_, List.getElem?_concat_length, rfl, ?_⟩
    split_ifs with hb
    · refine .inl ⟨rfl, fun d' e k => ?_⟩
      injection e with e
      subst e
      by_contra hk
      exact hk (by simpa using List.all_eq_true.mp hb k (account_keys h hk))
    · refine .inr ⟨d, rfl, rfl, ?_⟩
      rw [List.all_eq_true] at hb
      push Not at hb
      obtain ⟨k, -, hk⟩ := hb
      exact ⟨k, fun e => hk (by rw [e]; rfl)⟩

theorem account_last {l1 l2 : List MetaCmd} {g : Option ℕ} {m : Metas} (hl : Metas.start.run (l1 ++ .create g :: l2) = some m)
    (ho : Spec.OnlyFor l1 g l2 ∨ Spec.Blank l1 g l2) (k : String) :
    m.read (Spec.created l1) k = Spec.lastPut (.object (Spec.created l1)) k (g.bind (fun d => (Spec.account l1.reverse).2 (.program d) k)) l2 := by
  have hlen : (Spec.account l1.reverse).1.length = Spec.created l1 := by rw [account_len, created_reverse]
  have hrev : (l1 ++ .create g :: l2).reverse = l2.reverse ++ (.create g :: l1.reverse) := by simp
  obtain ⟨H, hb⟩ := books_run _ books_start hl
  have hm : m.objs.length = Spec.created (l1 ++ .create g :: l2) := by rw [← hb.len, account_len, List.append_nil, created_reverse]
  have hi : Spec.created l1 < m.objs.length := by
    rw [hm]
    unfold Spec.created
    simp
  obtain ⟨y, hy1, hy2⟩ := C115_account hl _ hi
  rw [hrev] at hy1 hy2
  rw [hy2]
  obtain ⟨x, hx, h2, hx'⟩ := account_new l1.reverse g
  rw [hlen] at hx hx'
  have huniq : ∀ j, (Spec.account (.create g :: l1.reverse)).1[j]? = some x → j = Spec.created l1 := by
    intro j hj
    rcases hx' with ⟨e, -⟩ | ⟨d, e1, e2, k0, hk0⟩
    · rcases holder_pos _ hj with e' | ⟨d, e', -⟩
      · rw [e] at e'; injection e' with e'; exact e'.symm
      · rw [e] at e'; cases e'
    · rcases ho with ho | ho
      · have hsplit : (Spec.account l1.reverse).1[j]? = some x ∨ j = (Spec.account l1.reverse).1.length := by
          subst e1
          rcases getElem?_snoc hj with hj | ⟨e, -⟩
          · exact .inl hj
          · exact .inr e
        rcases hsplit with hj | hj
        · rcases holder_pos _ hj with e' | ⟨d', e', hd⟩
          · rw [e2] at e'; cases e'
          · rw [e2] at e'
            injection e' with e'
            subst e'
            exact absurd (List.mem_reverse.mp hd) (ho d e1).1
        · rw [hj, hlen]
      · exact absurd (ho d e1 k0) hk0
  have hfree : ∀ d, x = .program d → .create (some d) ∉ l2 ∧ ∀ k v, .putDict d k v ∉ l2 := by
    intro d e
    rcases hx' with ⟨e', -⟩ | ⟨d', e1, e2, k0, hk0⟩
    · rw [e'] at e; cases e
    · rw [e2] at e
      injection e with e
      subst e
      rcases ho with ho | ho
      · exact (ho _ e1).2
      · exact absurd (ho _ e1 k0) hk0
  obtain ⟨h3, h4⟩ := account_own l2 _ hx huniq hfree k
  have hxy : y = x := Option.some.inj (hy1.symm.trans h3)
  rw [hxy, h4, h2]
  congr 1
  rcases hx' with ⟨e, hnone⟩ | ⟨d, e1, e2, -⟩
  · rw [e, account_blank _ (by rw [hlen])]
    cases g with
    | none => rfl
    | some d => exact (hnone d rfl k).symm
  · rw [e1, e2]
    rfl

/-! ## The theorems -/

/-- **C115**, dictionaries given to one object only: what is found in the meta of a tick, a trade or a close is what was last put there through that object, or else
what was in the dictionary given to its constructor. Missing for the full statement: dictionaries given to several objects (`C115_shared_false`), and dictionaries
that the program goes on writing to (`C115_alias_false`). -/
theorem C115_own_partial : Spec.C115 Spec.OnlyFor := fun _ _ _ _ hl ho k => account_last hl (.inl ho) k

/-- C115, no dictionary or an empty one given: the object has its own, whatever else is done with the dictionary given. -/
theorem C115_blank : Spec.C115 Spec.Blank := fun _ _ _ _ hl ho k => account_last hl (.inr ho) k

/-! ## Concrete cases -/

/-- `close_opened_trades(meta={"reason": "stop"})` with two open trades; the provider writes the number of each transaction. -/
def Demo.closeBoth : List MetaCmd :=
  [.create none, .create none, .dict, .putDict 0 "reason" (some "stop"), .create (some 0), .putObj 2 "id" (some "A"), .create (some 0),
    .putObj 3 "id" (some "B")]

/-- The same with an empty dictionary, which the program fills afterwards. -/
def Demo.closeEmpty : List MetaCmd :=
  [.create none, .create none, .dict, .create (some 0), .putObj 2 "id" (some "A"), .create (some 0), .putObj 3 "id" (some "B"),
    .putDict 0 "reason" (some "stop")]

/-- The first close shows the number of the second. -/
example : (Metas.start.run Demo.closeBoth).map (fun m => (m.read 2 "id", m.read 3 "id", m.read 2 "reason", m.read 0 "id")) =
    some (some "B", some "B", some "stop", none) := by decide +kernel

/-- With an empty dictionary each close has its own number, and what the program writes is lost. -/
example : (Metas.start.run Demo.closeEmpty).map (fun m => (m.read 2 "id", m.read 3 "id", m.read 2 "reason")) =
    some (some "A", some "B", none) := by decide +kernel

/-- C115 fails for a dictionary given to several objects, even if the program does not touch it any more. -/
theorem C115_shared_false : ¬ Spec.C115 (fun _ g l2 => ∀ d, g = some d → ∀ k v, .putDict d k v ∉ l2) := by
  intro h
  have := h (Demo.closeBoth.take 4) (some 0) (Demo.closeBoth.drop 5) _ (Option.some_get (x := Metas.start.run Demo.closeBoth) (by decide +kernel)).symm
    (by intro d _ k v; simp [Demo.closeBoth]) "id"
  revert this
  decide +kernel

/-- C115 fails for a dictionary that the program goes on writing to, even if it is given to one object only. -/
theorem C115_alias_false : ¬ Spec.C115 (fun l1 g l2 => ∀ d, g = some d → .create (some d) ∉ l1 ∧ .create (some d) ∉ l2) := by
  intro h
  have := h [.dict, .putDict 0 "reason" (some "stop")] (some 0) [.putDict 0 "reason" (some "limit")] _
    (Option.some_get (x := Metas.start.run [.dict, .putDict 0 "reason" (some "stop"), .create (some 0), .putDict 0 "reason" (some "limit")])
      (by decide +kernel)).symm
    (by intro d _; simp) "reason"
  revert this
  decide +kernel

/-- The hypotheses of C115_own_partial. -/
example : Spec.OnlyFor [.dict, .putDict 0 "reason" (some "stop")] (some 0) [.create none, .putObj 0 "id" (some "A"), .putObj 1 "id" (some "B")] ∧
    (Metas.start.run [.dict, .putDict 0 "reason" (some "stop"), .create (some 0), .create none, .putObj 0 "id" (some "A"),
      .putObj 1 "id" (some "B")]).map (fun m => (m.read 0 "id", m.read 0 "reason")) = some (some "A", some "stop") := by
  refine ⟨?_, by decide +kernel⟩
  intro d _
  simp

/-- The hypotheses of C115_blank. -/
example : Spec.Blank (Demo.closeEmpty.take 3) (some 0) (Demo.closeEmpty.drop 4) ∧
    (Spec.account (Demo.closeEmpty.take 5).reverse).1 = [.object 0, .object 1, .object 2] ∧
    (Spec.account Demo.closeBoth.reverse).1 = [.object 0, .object 1, .program 0, .program 0] := by
  refine ⟨fun d _ k => rfl, by decide +kernel, by decide +kernel⟩

end Estrade
