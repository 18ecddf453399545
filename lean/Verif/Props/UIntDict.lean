import Verif.Props.UInt
import Verif.Model.UIntDict

/-! # C167: dictionaries with UInt keys -/

namespace Neo.Props
open Py Spec Neo.UInt

/-- What is asked of the program: it does not change an array that an object uses, nor calls Deserialize on a key of the dictionary. -/
def KeysLeftAlone : DictState V → List (DictOp V) → Prop
  | _, [] => True
  | s, op :: ops =>
    (∀ a b, op = .heap (.mutate a b) → ∀ o ∈ s.heap.objs, o.data ≠ a) ∧
    (∀ i rest, op = .heap (.deserialize i rest) → ∀ e ∈ s.dict, e.2.1 ≠ i) ∧
    KeysLeftAlone (s.step op) ops

/-- The contents of the object with a name. -/
def contents (h : Heap) (k : Nat) : Option Bytes := h.objs[k]?.map h.dataOf

/-- The specification: a finite map from contents to values. -/
def mapStep (s : DictState V) (m : Bytes → Option V) : DictOp V → Bytes → Option V
  | .heap _ => m
  | .insert k v => fun d => if contents s.heap k = some d then some v else m d
  | .remove k => fun d => if contents s.heap k = some d then none else m d

/-- The map after a history. -/
def mapRun : DictState V → (Bytes → Option V) → List (DictOp V) → Bytes → Option V
  | _, m, [] => m
  | s, m, op :: ops => mapRun (s.step op) (mapStep s m op) ops

/-- Steps of the heap keep the other objects. -/
private theorem step_keeps {h : Heap} (hi : HashInv h) {op : Op} (hm : ∀ a b, op = .mutate a b → ∀ o ∈ h.objs, o.data ≠ a) {k : Nat} {o : Obj}
    (ho : h.objs[k]? = some o) (hd : ∀ i rest, op = .deserialize i rest → i ≠ k) :
    (h.step op).objs[k]? = some o ∧ (h.step op).dataOf o = h.dataOf o := by
  have hmem : o ∈ h.objs := List.mem_of_getElem? ho
  obtain ⟨hlt, -⟩ := hi o hmem
  have hk : k < h.objs.length := by
    rcases Nat.lt_or_ge k h.objs.length with h1 | h1
    · exact h1
    · rw [List.getElem?_eq_none h1] at ho; cases ho
  have happ : ∀ b, (h.arrays ++ [b]).getD o.data [] = h.arrays.getD o.data [] := fun b => by
    simp [List.getD_eq_getElem?_getD, List.getElem?_append_left hlt]
  cases op with
  | newArray b => exact ⟨ho, happ b⟩
  | construct n a =>
    show (match h.construct n a with | .ok h' => h' | .error _ => h).objs[k]? = some o ∧
      (match h.construct n a with | .ok h' => h' | .error _ => h).dataOf o = h.dataOf o
    cases hc : h.construct n a with
    | error e => exact ⟨ho, rfl⟩
    | ok h' =>
      show h'.objs[k]? = some o ∧ h'.dataOf o = h.dataOf o
      cases a with
      | none => cases hc; exact ⟨by simp only [List.getElem?_append_left hk, ho], happ _⟩
      | bytes b =>
        simp only [Heap.construct] at hc
        by_cases hb : b.length ≠ n
        · rw [if_pos hb] at hc; cases hc
        · rw [if_neg hb] at hc; cases hc; exact ⟨by simp only [List.getElem?_append_left hk, ho], happ _⟩
      | array a =>
        simp only [Heap.construct] at hc
        cases ha : h.arrays[a]? with
        | none => rw [ha] at hc; cases hc
        | some b =>
          rw [ha] at hc
          simp only at hc
          by_cases hb : b.length ≠ n
          · rw [if_pos hb] at hc; cases hc
          · rw [if_neg hb] at hc; cases hc; exact ⟨by simp only [List.getElem?_append_left hk, ho], rfl⟩
      | bad => cases hc
  | deserialize i rest =>
    have hik := hd i rest rfl
    show (h.deserialize i rest).objs[k]? = some o ∧ (h.deserialize i rest).dataOf o = h.dataOf o
    unfold Heap.deserialize
    cases hoi : h.objs[i]? with
    | none => exact ⟨ho, rfl⟩
    | some p => exact ⟨by simp only [List.getElem?_set_ne hik, ho], happ _⟩
  | mutate a b =>
    have := hm a b rfl o hmem
    refine ⟨ho, ?_⟩
    simp only [Heap.step, Heap.dataOf, Heap.at, List.getD_eq_getElem?_getD]
    rw [List.getElem?_set_ne (Ne.symm this)]

/-- The invariant: the entries are those of the map, under their present contents and hashes, each contents once. -/
private structure DictInv (s : DictState V) (m : Bytes → Option V) : Prop where
  hash : HashInv s.heap
  entry : ∀ e ∈ s.dict, ∃ o, s.heap.objs[e.2.1]? = some o ∧ e.1 = o.hash ∧ m (s.heap.dataOf o) = some e.2.2
  nodup : (s.dict.map fun e => contents s.heap e.2.1).Nodup
  dom : ∀ d v, m d = some v → ∃ e ∈ s.dict, contents s.heap e.2.1 = some d

/-- In such a state an entry matches a key exactly if its key has the same contents. -/
private theorem matches_iff {s : DictState V} {m : Bytes → Option V} (hi : DictInv s m) {k : Nat} {o : Obj} (ho : s.heap.objs[k]? = some o)
    {e : Nat × Nat × V} (he : e ∈ s.dict) : s.heap.matches k e = true ↔ contents s.heap e.2.1 = contents s.heap k := by
  obtain ⟨p, hp, hh, -⟩ := hi.entry e he
  have h1 := (hi.hash o (List.mem_of_getElem? ho)).2
  have h2 := (hi.hash p (List.mem_of_getElem? hp)).2
  unfold Heap.matches contents Heap.objEq
  rw [ho, hp]
  simp only [Option.map_some, Option.some.injEq, Bool.and_eq_true, Bool.or_eq_true, beq_iff_eq]
  constructor
  · rintro ⟨-, h | h⟩
    · rw [h, ho] at hp
      cases hp
      rfl
    · exact h
  · intro h
    exact ⟨by rw [hh, h1, h2, h], .inr h⟩

private theorem lookup_eq {s : DictState V} {m : Bytes → Option V} (hi : DictInv s m) {k : Nat} {o : Obj} (ho : s.heap.objs[k]? = some o) :
    s.heap.lookup s.dict k = m (s.heap.dataOf o) := by
  have hc : contents s.heap k = some (s.heap.dataOf o) := by unfold contents; rw [ho]; rfl
  unfold Heap.lookup
  cases hf : s.dict.find? (s.heap.matches k) with
  | none =>
    rw [List.find?_eq_none] at hf
    cases hm : m (s.heap.dataOf o) with
    | none => rfl
    | some v =>
      obtain ⟨e, he, h1⟩ := hi.dom _ _ hm
      exact absurd ((matches_iff hi ho he).2 (h1.trans hc.symm)) (hf e he)
  | some e =>
    have he := List.mem_of_find?_eq_some hf
    have h1 := (matches_iff hi ho he).1 (List.find?_some hf)
    obtain ⟨p, hp, -, h2⟩ := hi.entry e he
    rw [hc] at h1
    unfold contents at h1
    rw [hp, Option.map_some, Option.some.injEq] at h1
    rw [← h1, h2]
    rfl

private theorem inv_step {s : DictState V} {m : Bytes → Option V} (hi : DictInv s m) (op : DictOp V)
    (hm : ∀ a b, op = .heap (.mutate a b) → ∀ o ∈ s.heap.objs, o.data ≠ a)
    (hd : ∀ i rest, op = .heap (.deserialize i rest) → ∀ e ∈ s.dict, e.2.1 ≠ i) : DictInv (s.step op) (mapStep s m op) := by
  cases op with
  | heap op =>
    have hm' : ∀ a b, op = .mutate a b → ∀ o ∈ s.heap.objs, o.data ≠ a := fun a b h => hm a b (by rw [h])
    have hcon : ∀ e ∈ s.dict, contents (s.heap.step op) e.2.1 = contents s.heap e.2.1 ∧
        ∀ o, s.heap.objs[e.2.1]? = some o → (s.heap.step op).objs[e.2.1]? = some o ∧ (s.heap.step op).dataOf o = s.heap.dataOf o := by
      intro e he
      obtain ⟨o, ho, -⟩ := hi.entry e he
      have hk := step_keeps hi.hash hm' ho (fun i rest h h' => hd i rest (by rw [h]) e he h'.symm)
      refine ⟨by unfold contents; rw [hk.1, ho, Option.map_some, Option.map_some, hk.2], fun p hp => ?_⟩
      rw [ho] at hp
      cases hp
      exact hk
    refine ⟨hashInv_step hi.hash hm', ?_, ?_, ?_⟩
    · intro e he
      obtain ⟨o, ho, h1, h2⟩ := hi.entry e he
      obtain ⟨h3, h4⟩ := (hcon e he).2 o ho
      exact ⟨o, h3, h1, (congrArg m h4).trans h2⟩
    · have : (s.dict.map fun e => contents (s.heap.step op) e.2.1) = s.dict.map fun e => contents s.heap e.2.1 :=
        List.map_congr_left fun e he => (hcon e he).1
      show (s.dict.map fun e => contents (s.heap.step op) e.2.1).Nodup
      rw [this]
      exact hi.nodup
    · intro d v hv
      obtain ⟨e, he, h1⟩ := hi.dom d v hv
      exact ⟨e, he, (hcon e he).1.trans h1⟩
  | insert k v =>
    show DictInv ⟨s.heap, s.heap.insert s.dict k v⟩ (fun d => if contents s.heap k = some d then some v else m d)
    unfold Heap.insert
    cases ho : s.heap.objs[k]? with
    | none =>
      have : (fun d => if contents s.heap k = some d then some v else m d) = m := by
        funext d
        exact if_neg (by unfold contents; rw [ho]; exact nofun)
      rw [this]
      exact hi
    | some o =>
      have hc : contents s.heap k = some (s.heap.dataOf o) := by unfold contents; rw [ho]; rfl
      simp only
      cases hf : s.dict.findIdx? (s.heap.matches k) with
      | none =>
        rw [List.findIdx?_eq_none_iff] at hf
        have hnew : ∀ e ∈ s.dict, contents s.heap e.2.1 ≠ contents s.heap k := fun e he h => by
          have := (matches_iff hi ho he).2 h
          rw [hf e he] at this
          cases this
        refine ⟨hi.hash, ?_, ?_, ?_⟩
        · intro e he
          rcases List.mem_append.1 he with he | he
          · obtain ⟨p, hp, h1, h2⟩ := hi.entry e he
            refine ⟨p, hp, h1, ?_⟩
            have hne := hnew e he
            rw [show contents s.heap e.2.1 = some (s.heap.dataOf p) by unfold contents; rw [hp]; rfl] at hne
            show (if contents s.heap k = some (s.heap.dataOf p) then some v else m _) = _
            rw [if_neg (Ne.symm hne), h2]
          · rw [List.mem_singleton.1 he]
            exact ⟨o, ho, rfl, if_pos hc⟩
        · show ((s.dict ++ [(o.hash, k, v)]).map fun e => contents s.heap e.2.1).Nodup
          rw [List.map_append, List.nodup_append]
          refine ⟨hi.nodup, by simp, ?_⟩
          intro a ha b hb
          obtain ⟨e, he, rfl⟩ := List.mem_map.1 ha
          rw [List.map_singleton, List.mem_singleton] at hb
          rw [hb]
          exact hnew e he
        · intro d v' hv
          by_cases hd : contents s.heap k = some d
          · exact ⟨(o.hash, k, v), by simp, hd⟩
          · rw [if_neg hd] at hv
            obtain ⟨e, he, h1⟩ := hi.dom d v' hv
            exact ⟨e, List.mem_append_left _ he, h1⟩
      | some i =>
        obtain ⟨hlt, hmi, -⟩ := List.findIdx?_eq_some_iff_getElem.1 hf
        simp only
        have hci := (matches_iff hi ho (List.getElem_mem hlt)).1 hmi
        have hcont : ((s.dict.modify i fun e => (e.1, e.2.1, v)).map fun e => contents s.heap e.2.1) =
            s.dict.map fun e => contents s.heap e.2.1 := by
          apply List.ext_getElem
          · simp
          · intro j h1 h2
            simp only [List.getElem_map, List.getElem_modify]
            split <;> rfl
        -- entries of the new dictionary
        have hent : ∀ e ∈ s.dict.modify i (fun e => (e.1, e.2.1, v)), ∃ e' ∈ s.dict, e.1 = e'.1 ∧ e.2.1 = e'.2.1 ∧
            ((contents s.heap e'.2.1 = contents s.heap k ∧ e.2.2 = v) ∨ (contents s.heap e'.2.1 ≠ contents s.heap k ∧ e.2.2 = e'.2.2)) := by
          intro e he
          obtain ⟨j, hj, rfl⟩ := List.mem_iff_getElem.1 he
          rw [List.length_modify] at hj
          refine ⟨s.dict[j], List.getElem_mem hj, ?_⟩
          simp only [List.getElem_modify]
          by_cases hij : i = j
          · subst hij
            rw [if_pos rfl]
            exact ⟨rfl, rfl, .inl ⟨hci, rfl⟩⟩
          · rw [if_neg hij]
            refine ⟨rfl, rfl, .inr ⟨fun h => hij ?_, rfl⟩⟩
            have hnd := hi.nodup
            rw [List.nodup_iff_injective_getElem] at hnd
            have := @hnd ⟨i, by simpa using hlt⟩ ⟨j, by simpa using hj⟩ (by simp only [List.getElem_map]; exact hci.trans h.symm)
            exact congrArg Fin.val this
        refine ⟨hi.hash, ?_, hcont.symm ▸ hi.nodup, ?_⟩
        · intro e he
          obtain ⟨e', he', a1, a2, a3⟩ := hent e he
          obtain ⟨p, hp, h1, h2⟩ := hi.entry e' he'
          have hcp : contents s.heap e'.2.1 = some (s.heap.dataOf p) := by unfold contents; rw [hp]; rfl
          refine ⟨p, by rw [a2]; exact hp, by rw [a1]; exact h1, ?_⟩
          show (if contents s.heap k = some (s.heap.dataOf p) then some v else m _) = _
          rw [hcp] at a3
          rcases a3 with ⟨b1, b2⟩ | ⟨b1, b2⟩
          · rw [if_pos b1.symm, b2]
          · rw [if_neg (Ne.symm b1), b2, h2]
        · intro d v' hv
          have hmem : some d ∈ s.dict.map (fun e => contents s.heap e.2.1) := by
            by_cases hd : contents s.heap k = some d
            · exact List.mem_map.2 ⟨_, List.getElem_mem hlt, hci.trans hd⟩
            · rw [if_neg hd] at hv
              obtain ⟨e, he, h1⟩ := hi.dom d v' hv
              exact List.mem_map.2 ⟨e, he, h1⟩
          rw [← hcont] at hmem
          obtain ⟨e, he, h1⟩ := List.mem_map.1 hmem
          exact ⟨e, he, h1⟩
  | remove k =>
    show DictInv ⟨s.heap, s.heap.remove s.dict k⟩ (fun d => if contents s.heap k = some d then none else m d)
    unfold Heap.remove
    cases ho : s.heap.objs[k]? with
    | none =>
      have : (fun d => if contents s.heap k = some d then none else m d) = m := by
        funext d
        exact if_neg (by unfold contents; rw [ho]; exact nofun)
      have h2 : s.dict.eraseP (s.heap.matches k) = s.dict := by
        refine List.eraseP_of_forall_not fun e _ => ?_
        unfold Heap.matches
        rw [ho]
        exact Bool.false_ne_true
      rw [this, h2]
      exact hi
    | some o =>
      have hc : contents s.heap k = some (s.heap.dataOf o) := by unfold contents; rw [ho]; rfl
      have hsub := List.eraseP_sublist (p := s.heap.matches k) (l := s.dict)
      -- what is left has other contents
      have hleft : ∀ e, e ∈ s.dict.eraseP (s.heap.matches k) ↔ e ∈ s.dict ∧ contents s.heap e.2.1 ≠ contents s.heap k := by
        intro e
        constructor
        · intro he
          refine ⟨hsub.subset he, fun h => ?_⟩
          have hme := (matches_iff hi ho (hsub.subset he)).2 h
          obtain ⟨a, l1, l2, h1, h2, h3, h4⟩ := List.exists_of_eraseP (hsub.subset he) hme
          rw [h4] at he
          have hnd := hi.nodup
          rw [h3, List.map_append, List.map_cons, List.nodup_append] at hnd
          have hca := (matches_iff hi ho (by rw [h3]; simp)).1 h2
          rcases List.mem_append.1 he with he | he
          · exact h1 e he hme
          · refine (List.nodup_cons.1 hnd.2.1).1 ?_
            rw [hca, ← h]
            exact List.mem_map.2 ⟨e, he, rfl⟩
        · rintro ⟨he, hne⟩
          exact (List.mem_eraseP_of_neg (fun h => hne ((matches_iff hi ho he).1 h))).2 he
      refine ⟨hi.hash, ?_, hi.nodup.sublist (hsub.map _), ?_⟩
      · intro e he
        obtain ⟨he', hne⟩ := (hleft e).1 he
        obtain ⟨p, hp, h1, h2⟩ := hi.entry e he'
        refine ⟨p, hp, h1, ?_⟩
        rw [show contents s.heap e.2.1 = some (s.heap.dataOf p) by unfold contents; rw [hp]; rfl] at hne
        show (if contents s.heap k = some (s.heap.dataOf p) then none else m _) = _
        rw [if_neg (Ne.symm hne), h2]
      · intro d v hv
        by_cases hd : contents s.heap k = some d
        · rw [if_pos hd] at hv; cases hv
        · rw [if_neg hd] at hv
          obtain ⟨e, he, h1⟩ := hi.dom d v hv
          exact ⟨e, (hleft e).2 ⟨he, fun h => hd (h.symm.trans h1)⟩, h1⟩

private theorem inv_run {s : DictState V} {m : Bytes → Option V} (hi : DictInv s m) (ops : List (DictOp V)) (hk : KeysLeftAlone s ops) :
    DictInv (ops.foldl DictState.step s) (mapRun s m ops) := by
  induction ops generalizing s m with
  | nil => exact hi
  | cons op ops ih => exact ih (inv_step hi op hk.1 hk.2.1) hk.2.2

/-- C167. After every history that leaves the keys alone: looking up any object gives the value last stored under an object of the
same contents and not removed since, and nothing if there is none. -/
theorem C167_lookup (ops : List (DictOp V)) (hk : KeysLeftAlone ⟨⟨[], []⟩, []⟩ ops) (k : Nat) (d : Bytes)
    (hd : contents (DictState.run ops).heap k = some d) :
    (DictState.run ops).heap.lookup (DictState.run ops).dict k = mapRun ⟨⟨[], []⟩, []⟩ (fun _ => none) ops d := by
  have hi : DictInv (⟨⟨[], []⟩, []⟩ : DictState V) (fun _ => none) :=
    ⟨fun o ho => by simp at ho, fun e he => by simp at he, by simp, fun d v h => by cases h⟩
  have := inv_run hi ops hk
  unfold contents at hd
  cases ho : (DictState.run ops).heap.objs[k]? with
  | none => rw [ho] at hd; cases hd
  | some o =>
    rw [ho, Option.map_some, Option.some.injEq] at hd
    rw [← hd]
    exact lookup_eq this ho

/-- C167. The dictionary has one entry for every contents in the map, and no others: its length is the number of them. -/
theorem C167_keys (ops : List (DictOp V)) (hk : KeysLeftAlone ⟨⟨[], []⟩, []⟩ ops) :
    ((DictState.run ops).dict.map fun e => contents (DictState.run ops).heap e.2.1).Nodup ∧
    ∀ d, (some d ∈ (DictState.run ops).dict.map fun e => contents (DictState.run ops).heap e.2.1) ↔
      mapRun ⟨⟨[], []⟩, []⟩ (fun _ => none) ops d ≠ none := by
  have hi : DictInv (⟨⟨[], []⟩, []⟩ : DictState V) (fun _ => none) :=
    ⟨fun o ho => by simp at ho, fun e he => by simp at he, by simp, fun d v h => by cases h⟩
  have := inv_run hi ops hk
  refine ⟨this.nodup, fun d => ⟨fun h => ?_, fun h => ?_⟩⟩
  · obtain ⟨e, he, h1⟩ := List.mem_map.1 h
    obtain ⟨o, ho, -, h2⟩ := this.entry e he
    unfold contents at h1
    have ho' : (DictState.run ops).heap.objs[e.2.1]? = some o := ho
    rw [ho', Option.map_some, Option.some.injEq] at h1
    rw [← h1]
    show mapRun _ _ _ ((ops.foldl DictState.step _).heap.dataOf o) ≠ none
    rw [h2]
    exact nofun
  · cases hm : mapRun ⟨⟨[], []⟩, []⟩ (fun _ => none) ops d with
    | none => exact absurd hm h
    | some v =>
      obtain ⟨e, he, h1⟩ := this.dom d v hm
      exact List.mem_map.2 ⟨e, he, h1⟩

/-- A history with two equal keys made in different ways, a Deserialize of an object that is no key, a removal: the requirement is met. -/
example : ∃ ops : List (DictOp Nat), KeysLeftAlone ⟨⟨[], []⟩, []⟩ ops ∧
    (DictState.run ops).heap.lookup (DictState.run ops).dict 1 = some 8 ∧ (DictState.run ops).dict.length = 1 := by
  refine ⟨[.heap (.newArray [1, 2]), .heap (.construct 2 (.array 0)), .insert 0 7, .heap (.construct 2 (.bytes [5, 6])),
    .heap (.deserialize 1 [1, 2, 3]), .insert 1 8, .heap (.construct 2 .none), .insert 2 9, .remove 2], ?_, by decide, by decide⟩
  simp [KeysLeftAlone, DictState.step, Heap.step, Heap.construct, Heap.insert]

end Neo.Props
