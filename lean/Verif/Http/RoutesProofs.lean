import Verif.Http.Routes
/-!
# C74, C75: routes
-/

namespace Verif.Http

theorem isPrefixOf_iff (a b : Bytes) : a.isPrefixOf b = true ↔ ∃ r, b = a ++ r := by
  rw [List.isPrefixOf_iff_prefix]
  constructor
  · rintro ⟨r, h⟩; exact ⟨r, h.symm⟩
  · rintro ⟨r, h⟩; exact ⟨r, h.symm⟩

theorem hereIs_zero (p url : Bytes) : hereIs p url 0 = true ↔ url = p ∨ ∃ r, url = p ++ 47 :: r := by
  simp only [hereIs, Bool.and_eq_true, Bool.or_eq_true, decide_eq_true_eq, Nat.add_zero, List.drop_zero, isPrefixOf_iff]
  constructor
  · rintro ⟨⟨h1, r, h2⟩, h3⟩
    subst h2
    rcases h3 with h3 | h3
    · left
      have : r = [] := by
        have : r.length = 0 := by simp at h3; exact List.length_eq_zero_iff.2 h3
        exact List.length_eq_zero_iff.1 this
      simp [this]
    · right
      rcases r with _ | ⟨c, r⟩
      · simp at h3
      · simp at h3
        exact ⟨r, by rw [h3]⟩
  · rintro (h | ⟨r, h⟩)
    · subst h
      exact ⟨⟨Nat.le_refl _, [], by simp⟩, .inl rfl⟩
    · subst h
      refine ⟨⟨by simp, _, rfl⟩, .inr (by simp)⟩

/-! ## C74: which rule is taken -/

/-- A rule of a path takes the path, with or without a slash at its end, and nothing else; parameters stay as they are. -/
theorem C74_path (h : Option Nat) (p url : Bytes) (ps : Params) :
    Rule.get ⟨h, [.str p]⟩ url ps = if url = p ∨ url = p ++ [47] then (h, ps) else (none, ps) := by
  simp only [Rule.get, matchAll, Matcher.match]
  by_cases hh : hereIs p url 0 = true
  · simp only [hh, if_true]
    rcases (hereIs_zero p url).1 hh with he | ⟨r, he⟩
    · subst he; simp
    · subst he
      rcases r with _ | ⟨c, r⟩
      · simp
      · simp
  · simp only [hh]
    rw [if_neg (c := url = p ∨ url = p ++ [47])]
    · rfl
    · rintro (he | he)
      · exact hh ((hereIs_zero p url).2 (.inl he))
      · exact hh ((hereIs_zero p url).2 (.inr ⟨[], he⟩))

/-- A rule with a remainder takes what begins with the path and goes on with a slash or not at all, and the parameter is what follows the path. -/
theorem C74_remainder (h : Option Nat) (p name r : Bytes) (ps : Params) (hr : r = [] ∨ r.head? = some 47) :
    Rule.get ⟨h, [.str p, .param name true]⟩ (p ++ r) ps = (h, ps.put name r) := by
  have hh : hereIs p (p ++ r) 0 = true := by
    rw [hereIs_zero]
    rcases hr with hr | hr
    · subst hr; left; simp
    · rcases r with _ | ⟨c, r⟩
      · cases hr
      · simp only [List.head?_cons, Option.some.injEq] at hr
        subst hr
        exact .inr ⟨r, rfl⟩
  simp only [Rule.get, matchAll, Matcher.match, hh, if_true, findEndParam]
  by_cases hl : (p ++ r).length = p.length + 0
  · have : r = [] := by
      simp at hl; exact hl
    subst this
    simp
  · rw [if_neg hl]
    have : substr (p ++ r) (p.length + 0) ((p ++ r).length - (p.length + 0)) = r := by
      simp [substr]
    simp only [this]
    simp

/-- Everything else is refused. -/
theorem C74_remainder_only (h : Option Nat) (p name url : Bytes) (ps : Params) (hn : ∀ r, url = p ++ r → r ≠ [] ∧ r.head? ≠ some 47) :
    (Rule.get ⟨h, [.str p, .param name true]⟩ url ps).1 = none := by
  have hh : hereIs p url 0 = false := by
    cases hb : hereIs p url 0
    · rfl
    · rcases (hereIs_zero p url).1 hb with he | ⟨r, he⟩
      · exact absurd rfl (hn [] (by simpa using he)).1
      · exact absurd rfl (hn _ he).2
  simp [Rule.get, matchAll, Matcher.match, hh]

/-- A handler of the exact path comes first and leaves the parameters alone. -/
theorem C74_exact (t : Routes) (type : Nat) (path : Bytes) (ps : Params) (h : Nat) (he : t.getExactMatch type path = some h) :
    t.getHandler type path ps = (some h, ps) := by
  rw [Routes.getHandler, he]

theorem tryRules_first (l : List Rule) (r : Rule) (rest : List Rule) (path : Bytes) (h : Nat) (ps' : Params)
    (hl : ∀ x ∈ l, ∀ ps, (x.get path ps).1 = none) (hr : r.get path [] = (some h, ps')) :
    tryRules (l ++ r :: rest) path [] = (some h, ps') := by
  induction l with
  | nil => rw [List.nil_append, tryRules, hr]
  | cons x l ih =>
    have hx := hl x List.mem_cons_self []
    rw [List.cons_append, tryRules]
    rcases hg : x.get path [] with ⟨_ | h', ps''⟩
    · exact ih fun y hy => hl y (List.mem_cons_of_mem _ hy)
    · rw [hg] at hx; cases hx

/-- Otherwise the first rule that matches is taken, in the order in which they were added, with its parameters and no others. -/
theorem C74_first (t : Routes) (type : Nat) (path : Bytes) (l : List Rule) (r : Rule) (rest : List Rule) (h : Nat) (ps' : Params)
    (he : t.getExactMatch type path = none) (ht : t.rules type = l ++ r :: rest) (hl : ∀ x ∈ l, ∀ ps, (x.get path ps).1 = none)
    (hr : r.get path [] = (some h, ps')) : t.getHandler type path [] = (some h, ps') := by
  rw [Routes.getHandler, he, ht]
  exact tryRules_first l r rest path h ps' hl hr

theorem tryRules_none (l : List Rule) (path : Bytes) (hl : ∀ x ∈ l, ∀ ps, (x.get path ps).1 = none) (ps : Params) :
    tryRules l path ps = (none, if l = [] then ps else []) := by
  induction l generalizing ps with
  | nil => rfl
  | cons x l ih =>
    have hx := hl x List.mem_cons_self ps
    rw [tryRules]
    rcases hg : x.get path ps with ⟨_ | h', ps''⟩
    · dsimp only
      rw [ih fun y hy => hl y (List.mem_cons_of_mem _ hy)]
      simp
    · rw [hg] at hx; cases hx

/-- If nothing matches there is no handler, and no parameters are left over. -/
theorem C74_none (t : Routes) (type : Nat) (path : Bytes) (he : t.getExactMatch type path = none)
    (hl : ∀ x ∈ t.rules type, ∀ ps, (x.get path ps).1 = none) : t.getHandler type path [] = (none, []) := by
  rw [Routes.getHandler, he]
  dsimp only
  rw [tryRules_none _ _ hl]
  simp

/-- `Put`: the last handler of a path, for its method only. -/
theorem C74_put (t : Routes) (type : Nat) (path : Bytes) (h : Nat) (type' : Nat) (path' : Bytes) :
    (t.put type path (some h)).getExactMatch type' path' = if type' = type ∧ path' = path then some h else t.getExactMatch type' path' := by
  simp only [Routes.getExactMatch, Routes.put]
  by_cases h1 : type' = type
  · simp only [h1, if_true, true_and]
    by_cases h2 : path' = path
    · subst h2
      simp
    · rw [if_neg h2]
      rw [List.find?_cons_of_neg (by simpa using fun hc => h2 hc.symm), List.find?_filter]
      have : (fun a : Bytes × Option Nat => decide ((a.1 != path) = true ∧ (a.1 == path') = true)) = fun a => a.1 == path' := by
        funext a
        by_cases ha : a.1 = path'
        · simp [ha, h2]
        · simp [ha]
      simp only [this]
  · simp [h1]

/-- `Add` puts a rule behind the others of its method. -/
theorem C74_add (t : Routes) (r : Rule) (type type' : Nat) :
    (t.add r type).rules type' = if type' = type then t.rules type' ++ [r] else t.rules type' := rfl

/-- Parameters by name. -/
theorem C74_params (ps : Params) (k v x : Bytes) : (ps.put k v).look x = if x = k then some v else ps.look x := by
  simp only [Params.put, Params.look]
  by_cases h : x = k
  · subst h; simp
  · rw [if_neg h, List.find?_cons_of_neg (by simpa using fun hc => h hc.symm), List.find?_filter]
    have : (fun a : Bytes × Bytes => decide ((a.1 != k) = true ∧ (a.1 == x) = true)) = fun a => a.1 == x := by
      funext a
      by_cases ha : a.1 = x
      · simp [ha, h]
      · simp [ha]
    rw [this]

/-- A request with a slash at its end is treated as one without. -/
theorem C74_normalize (url : Bytes) (h : url ≠ []) (hs : url.getLast? ≠ some 47) :
    normalizeUrl (url ++ [47]) = url ∧ normalizeUrl url = url := by
  constructor
  · have : 0 < url.length := List.length_pos_iff.2 h
    rw [normalizeUrl, if_neg]
    · simp
    · simp
      omega
  · rw [normalizeUrl, if_pos (.inr hs)]

/-- Non-vacuity: a table with all three kinds. -/
example :
    let t := (((⟨fun _ => [], fun _ => []⟩ : Routes).put 0 [47, 97] (some 1)).addPath 0 [47, 98] [] (some 2)).addPath 0 [47] [120] (some 3)
    (t.getHandler 0 [47, 97] []).1 = some 1 ∧ (t.getHandler 0 [47, 98] []).1 = some 2 ∧
    t.getHandler 0 [47, 47, 99] [] = (some 3, [([120], [47, 99])]) ∧ t.getHandler 1 [47, 97] [] = (none, []) := by decide +kernel

/-! ## C75: slashes at the end of a registered path -/

/-- The path of a request never ends with a slash after `NormalizeUrl` (unless it is `/` or ended with two), so what is registered with `Put` under
such a path is not found by the request for this very path. -/
theorem C75_slash_partial (t : Routes) (type : Nat) (p : Bytes) (hp : p ≠ []) (hs : p.getLast? ≠ some 47) (h : Nat) (he : t.getExactMatch type p = none)
    (hl : ∀ x ∈ t.rules type, ∀ ps, (x.get p ps).1 = none) :
    (t.put type (p ++ [47]) (some h)).getHandler type (normalizeUrl (p ++ [47])) [] = (none, []) := by
  rw [(C74_normalize p hp hs).1]
  refine C74_none _ _ _ ?_ hl
  rw [C74_put, if_neg]
  · exact he
  · rintro ⟨-, hc⟩
    have := congrArg List.length hc
    simp at this

/-- The same for a rule with a remainder: it takes neither the path itself nor what is below it. -/
theorem C75_below_partial (h : Option Nat) (p name r : Bytes) (c : UInt8) (hc : c ≠ 47) (ps : Params) :
    (Rule.get ⟨h, [.str (p ++ [47]), .param name true]⟩ (p ++ 47 :: c :: r) ps).1 = none := by
  refine C74_remainder_only h (p ++ [47]) name _ ps ?_
  intro r' he
  rw [List.append_assoc, List.singleton_append] at he
  have := List.append_cancel_left he
  injection this with _ h2
  subst h2
  simp [hc]

end Verif.Http
