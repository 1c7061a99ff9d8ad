import Verif.Http.Query
import Verif.Http.PercentProofs
import Verif.Http.FieldMapProofs
/-!
# C72: query parameters
-/

namespace Verif.Http

theorem findFrom_append {c : UInt8} {a : Bytes} {n : Nat} (hn : a.length = n) (s t : Bytes) (h : c ∉ s) :
    findFrom c (a ++ (s ++ c :: t)) n = some (n + s.length) := by
  rw [findFrom, List.drop_append_of_le_length (by omega), List.drop_of_length_le (by omega), List.nil_append]
  have : (s ++ c :: t).findIdx? (· == c) = some s.length := by
    rw [List.findIdx?_append]
    have h1 : s.findIdx? (· == c) = none := by
      rw [List.findIdx?_eq_none_iff]
      intro x hx
      simp only [beq_eq_false_iff_ne, ne_eq]
      intro hc
      exact h (hc ▸ hx)
    simp [h1, List.findIdx?_cons]
  rw [this]

theorem findFrom_none {c : UInt8} {a : Bytes} {n : Nat} (hn : a.length = n) (s : Bytes) (h : c ∉ s) :
    findFrom c (a ++ s) n = none := by
  rw [findFrom, List.drop_append_of_le_length (by omega), List.drop_of_length_le (by omega), List.nil_append]
  have h1 : s.findIdx? (· == c) = none := by
    rw [List.findIdx?_eq_none_iff]
    intro x hx
    simp only [beq_eq_false_iff_ne, ne_eq]
    intro hc
    exact h (hc ▸ hx)
  rw [h1]

/-! ## The specification -/

/-- A parameter as clients write it. -/
def paramText (p : Bytes × Bytes) : Bytes := percentEncode p.1 ++ 61 :: percentEncode p.2

/-- `k1=v1&k2=v2…` -/
def queryText : List (Bytes × Bytes) → Bytes
  | [] => []
  | [p] => paramText p
  | p :: q :: ps => paramText p ++ 38 :: queryText (q :: ps)

/-- The last value of a name. -/
def lastValue (ps : List (Bytes × Bytes)) (k : Bytes) : Option Bytes := (ps.reverse.find? (·.1 = k)).map (·.2)

theorem percentEncode_clean (s : Bytes) : 38 ∉ percentEncode s ∧ 61 ∉ percentEncode s := by
  constructor <;> intro h <;> rcases C69_safe s _ h with h | h
  · exact absurd h (by decide)
  · exact absurd h (by decide)
  · exact absurd h (by decide)
  · exact absurd h (by decide)

theorem paramText_clean (p : Bytes × Bytes) : 38 ∉ paramText p := by
  simp only [paramText, List.mem_append, List.mem_cons, not_or]
  exact ⟨(percentEncode_clean _).1, by decide, (percentEncode_clean _).1⟩

theorem add_paramText (m : Pairs) (p : Bytes × Bytes) : addQueryParameter m (paramText p) = m.set lexLess p.1 p.2 := by
  have hf : findFrom 61 (paramText p) 0 = some (percentEncode p.1).length := by
    have := findFrom_append (c := 61) (a := []) (n := 0) rfl (percentEncode p.1) (percentEncode p.2) (percentEncode_clean _).2
    simpa [paramText] using this
  rw [addQueryParameter, hf]
  dsimp only
  have h1 : substr (paramText p) 0 (percentEncode p.1).length = percentEncode p.1 := by
    simp [substr, paramText]
  have h2 : (paramText p).drop ((percentEncode p.1).length + 1) = percentEncode p.2 := by
    simp [paramText, ← List.drop_drop]
  have hlen : (paramText p).length = (percentEncode p.1).length + 1 + (percentEncode p.2).length := by
    simp only [paramText, List.length_append, List.length_cons]; omega
  rw [h1, h2, C69_query, C69_query]
  split
  · rename_i h
    have : p.2 = [] := by
      have h0 : (percentEncode p.2).length = 0 := by omega
      have h3 := C69_decode p.2
      rw [List.length_eq_zero_iff.1 h0] at h3
      exact h3.symm
    simp [this]
  · rfl

theorem initLoop_eq (ps : List (Bytes × Bytes)) (hps : ps ≠ []) (a : Bytes) (fuel : Nat) (m : Pairs) (hf : (queryText ps).length ≤ fuel) :
    initLoop (a ++ queryText ps) fuel a.length m = ps.foldl (fun m p => m.set lexLess p.1 p.2) m := by
  induction ps generalizing a fuel m with
  | nil => exact absurd rfl hps
  | cons p ps ih =>
    rcases ps with _ | ⟨q, ps⟩
    · have hd : (a ++ queryText [p]).drop a.length = paramText p := by simp [queryText]
      rcases fuel with _ | fuel
      · rw [initLoop, hd, add_paramText]; rfl
      · rw [initLoop, findFrom_none (c := 38) rfl _ (by simpa [queryText] using paramText_clean p)]
        dsimp only
        rw [hd, add_paramText]; rfl
    · have hlen : (queryText (p :: q :: ps)).length = (paramText p).length + 1 + (queryText (q :: ps)).length := by
        simp only [queryText, List.length_append, List.length_cons]; omega
      rcases fuel with _ | fuel
      · omega
      · rw [initLoop]
        simp only [queryText]
        rw [findFrom_append rfl (paramText p) (queryText (q :: ps)) (paramText_clean p)]
        dsimp only
        have hsub : substr (a ++ (paramText p ++ 38 :: queryText (q :: ps))) a.length (a.length + (paramText p).length - a.length) = paramText p := by
          rw [Nat.add_sub_cancel_left]
          simp [substr]
        rw [hsub, add_paramText]
        have := ih (by simp) (a ++ paramText p ++ [38]) fuel (m.set lexLess p.1 p.2) (by omega)
        simp only [List.length_append, List.length_cons, List.length_nil, List.append_assoc, List.cons_append, List.nil_append] at this
        simp only [Nat.zero_add] at this
        rw [Nat.add_assoc, this]
        rfl

theorem foldl_set (ps : List (Bytes × Bytes)) (m : Pairs) :
    ps.foldl (fun m p => m.set lexLess p.1 p.2) m = (ps.map fun p => MapOp.set p.1 p.2).foldl (MapOp.run lexLess) m := by
  rw [List.foldl_map]
  rfl

theorem spec_set (ps : List (Bytes × Bytes)) (x : Bytes) (f : Bytes → List Bytes) :
    (ps.map fun p => MapOp.set p.1 p.2).foldl (MapOp.spec fun a b => decide (a = b)) f x =
      match lastValue ps x with | some v => [v] | none => f x := by
  induction ps generalizing f with
  | nil => rfl
  | cons p ps ih =>
    rw [List.map_cons, List.foldl_cons, ih, lastValue, lastValue, List.reverse_cons, List.find?_append]
    rcases hfd : ps.reverse.find? (fun q => decide (q.1 = x)) with _ | q
    · simp only [hfd, Option.map_none, Option.none_or, MapOp.spec]
      by_cases h : p.1 = x <;> simp [h, List.find?]
    · simp [hfd]

/-! ## C72 -/

/-- What a client has put into the URL arrives: for every path and all names and values, `InitQueryParameters` followed by `GetQueryParameter` returns the last
value of a name, and an empty string (or the default) for names that are not there. -/
theorem C72_query (path : Bytes) (hp : 63 ∉ path) (ps : List (Bytes × Bytes)) (hps : ps ≠ []) :
    ∃ m, initQueryParameters (path ++ 63 :: queryText ps) = some m ∧
      ∀ k, m.get lexLess k = (lastValue ps k).getD [] ∧ m.has lexLess k = (lastValue ps k).isSome := by
  have hf := findFrom_append (c := 63) (a := []) (n := 0) rfl path (queryText ps) hp
  rw [List.nil_append, Nat.zero_add] at hf
  refine ⟨_, by rw [initQueryParameters, hf], ?_⟩
  intro k
  have h := initLoop_eq ps hps (path ++ [63]) (path ++ 63 :: queryText ps).length [] (by simp; omega)
  simp only [List.append_assoc, List.cons_append, List.nil_append, List.length_append, List.length_cons, List.length_nil, Nat.zero_add] at h
  rw [show (path ++ 63 :: queryText ps).length = path.length + ((queryText ps).length + 1) by simp, h, foldl_set]
  have := C70_parameters (ps.map fun p => MapOp.set p.1 p.2) (by
    intro k v hm
    obtain ⟨p, _, hp⟩ := List.mem_map.1 hm
    cases hp) k
  dsimp only at this
  rw [spec_set] at this
  rcases hl : lastValue ps k with _ | v <;> rw [hl] at this
  · exact ⟨this.2.1, this.2.2⟩
  · exact ⟨this.2.1, this.2.2⟩

/-- Without `?` there are no parameters. -/
theorem C72_none (uri : Bytes) (h : 63 ∉ uri) : initQueryParameters uri = none := by
  have := findFrom_none (c := 63) (a := []) (n := 0) rfl uri h
  rw [List.nil_append] at this
  rw [initQueryParameters, this]

example : initQueryParameters [47, 63, 97, 61, 37, 50, 54, 38, 98] = some [([97], [38]), ([98], [])] := by decide +kernel

end Verif.Http
