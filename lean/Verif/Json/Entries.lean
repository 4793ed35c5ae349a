import Verif.Json.ParseProps

/-!
# Entries of objects: duplicate keys (C37)
-/

namespace Verif.Json

theorem lookup_insertKey (k k' : List Byte) (v : Val) (l : List (List Byte × Val)) :
    (insertKey k v l).lookup k' = if k' = k then some v else l.lookup k' := by
  induction l with
  | nil =>
    rw [insertKey, List.lookup_cons]
    by_cases e : k' = k
    · simp [e]
    · simp [e, beq_false_of_ne e]
  | cons a l ih =>
    obtain ⟨k1, v1⟩ := a
    rw [insertKey]
    split
    · next e =>
      subst e
      rw [List.lookup_cons, List.lookup_cons]
      by_cases e : k' = k1
      · simp [e]
      · simp [e, beq_false_of_ne e]
    · next e =>
      rw [List.lookup_cons, List.lookup_cons, ih]
      by_cases e1 : k' = k1
      · subst e1; simp [e]
      · simp [beq_false_of_ne e1]

theorem keys_insertKey (k : List Byte) (v : Val) (l : List (List Byte × Val)) :
    (insertKey k v l).map (·.1) = if k ∈ l.map (·.1) then l.map (·.1) else l.map (·.1) ++ [k] := by
  induction l with
  | nil => simp [insertKey]
  | cons a l ih =>
    obtain ⟨k1, v1⟩ := a
    rw [insertKey]
    split
    · next e => simp [e]
    · next e =>
      have e' : ¬ k = k1 := fun h => e h.symm
      rw [List.map_cons, ih]
      by_cases hm : k ∈ l.map (·.1)
      · rw [if_pos hm, if_pos (by simpa using Or.inr hm)]; simp
      · rw [if_neg hm, if_neg (by simp only [List.map_cons, List.mem_cons, not_or]; exact ⟨e', hm⟩)]; simp

theorem nodup_insertKey {k : List Byte} {v : Val} {l : List (List Byte × Val)} (h : (l.map (·.1)).Nodup) :
    ((insertKey k v l).map (·.1)).Nodup := by
  rw [keys_insertKey]
  split
  · exact h
  · next hm =>
    rw [List.nodup_append]
    refine ⟨h, by simp, ?_⟩
    intro a ha b hb
    simp only [List.mem_singleton] at hb
    subst hb
    intro e
    exact hm (e ▸ ha)

theorem lookup_isSome {k : List Byte} {l : List (List Byte × Val)} :
    (l.lookup k).isSome = true ↔ k ∈ l.map (·.1) := by
  induction l with
  | nil => simp
  | cons a l ih =>
    rw [List.lookup_cons, List.map_cons, List.mem_cons]
    by_cases e : k = a.1
    · simp [e]
    · rw [show (k == a.1) = false from by simp [e]]
      simp [ih, e]

theorem length_insertKey (k : List Byte) (v : Val) (l : List (List Byte × Val)) :
    (insertKey k v l).length = if (l.lookup k).isSome then l.length else l.length + 1 := by
  have h := congrArg List.length (keys_insertKey k v l)
  rw [List.length_map] at h
  rw [h]
  by_cases hm : k ∈ l.map (·.1)
  · rw [if_pos hm, if_pos (lookup_isSome.2 hm), List.length_map]
  · rw [if_neg hm, if_neg (fun h => hm (lookup_isSome.1 h))]; simp

theorem lookup_valF (items : List (List Byte × Syn)) (acc : List (List Byte × Val)) (k : List Byte) :
    (valF items acc).lookup k = ((items.reverse.lookup k).map Syn.val).or (acc.lookup k) := by
  induction items generalizing acc with
  | nil => simp [valF]
  | cons a l ih =>
    obtain ⟨k1, x⟩ := a
    rw [valF, ih, lookup_insertKey, List.reverse_cons, List.lookup_append]
    cases l.reverse.lookup k with
    | some y => simp
    | none =>
      by_cases e : k = k1
      · simp [List.lookup_cons, e]
      · simp [List.lookup_cons, e, beq_false_of_ne e]

theorem keys_valF (items : List (List Byte × Syn)) (acc : List (List Byte × Val)) :
    (valF items acc).map (·.1) =
      acc.map (·.1) ++ ((items.map (·.1)).filter (fun k => !(acc.map (·.1)).contains k)).eraseDups := by
  induction items generalizing acc with
  | nil => simp [valF]
  | cons a l ih =>
    obtain ⟨k, x⟩ := a
    rw [valF, ih, keys_insertKey, List.map_cons, List.filter_cons]
    by_cases hm : k ∈ acc.map (·.1)
    · rw [if_pos hm, if_neg (by simpa using hm)]
    · rw [if_neg hm, if_pos (by simpa using hm), List.eraseDups_cons, List.filter_filter, List.append_assoc]
      congr 1
      rw [List.singleton_append]
      congr 2
      apply List.filter_congr
      intro y _
      rw [List.contains_append]
      by_cases e : y = k
      · simp [e]
      · simp [beq_false_of_ne e, e]

namespace Props

/-- **C37**, duplicate keys, said without the functions of the model: the keys of an object are the different
keys of the text in the order of their first occurrences, and the value of each is that of its last
occurrence -/
theorem C37_duplicates (items : List (List Byte × Syn)) (tr : Bool) :
    ∃ kvs, (Syn.obj items tr).val = .obj kvs ∧ kvs.map (·.1) = (items.map (·.1)).eraseDups ∧
      ∀ k, kvs.lookup k = (items.reverse.lookup k).map Syn.val := by
  refine ⟨valF items [], by rw [Syn.val], ?_, fun k => ?_⟩
  · rw [keys_valF]
    have : (items.map (·.1)).filter (fun k => !(([] : List (List Byte × Val)).map (·.1)).contains k) = items.map (·.1) := by
      simp
    rw [this]; simp
  · rw [lookup_valF]; simp

/-- in `{"a":1,"b":2,"a":3}` the key `a` comes first and has the value 3 -/
example : ([([97], Syn.lit (.i64 1)), ([98], .lit (.i64 2)), ([97], .lit (.i64 3))].map
      (fun (e : List Byte × Syn) => e.1)).eraseDups = [[97], [98]] ∧
    (Syn.obj [([97], .lit (.i64 1)), ([98], .lit (.i64 2)), ([97], .lit (.i64 3))] false).val =
      .obj [([97], .atom (.i64 3)), ([98], .atom (.i64 2))] := by
  constructor
  · decide
  · simp [Syn.val, valF, insertKey]

end Props
end Verif.Json
