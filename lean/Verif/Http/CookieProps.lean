import Verif.Http.Cookie

/-!
# C160, C161: cookies
-/

namespace Verif.Http.Cookie

/-! ## Specification: how `Set-Cookie` is read (RFC 6265, 5.2; RFC 2109) -/

/-- The parts between semicolons. -/
def parts : Str → List Str
  | [] => [[]]
  | a :: t => if a = ';' then [] :: parts t else match parts t with
    | [] => [[a]]
    | p :: ps => (a :: p) :: ps

/-- A value may be in quotes. -/
def unq : Str → Str
  | '"' :: t => if t.getLast? = some '"' then t.dropLast else '"' :: t
  | l => l

/-- Name and value of a part: up to the first equals sign, and after it; spaces before the name do not count. -/
def field (s : Str) : Str × Str :=
  let s := s.dropWhile (· == ' ')
  (s.takeWhile (· != '='), unq ((s.dropWhile (· != '=')).drop 1))

def read (s : Str) : List (Str × Str) := (parts s).map field

/-- The attribute `SameSite`. -/
def sameField (s : Int) : List (Str × Str) :=
  if s = 1 then [("SameSite".toList, "None".toList)] else if s = 2 then [("SameSite".toList, "Lax".toList)] else if s = 3 then [("SameSite".toList, "Strict".toList)] else []

/-- What a cookie is to be read as. -/
def fields (e : Env) (c : Cookie) : List (Str × Str) :=
  if c.version = 0 then
    [(c.name, c.value)] ++ (if c.domain = [] then [] else [("domain".toList, c.domain)]) ++ (if c.path = [] then [] else [("path".toList, c.path)])
      ++ (if c.maxAge = -1 then [] else [("expires".toList, e.date (e.now + c.maxAge))]) ++ sameField c.sameSite
      ++ (if c.secure then [("secure".toList, [])] else []) ++ (if c.httpOnly then [("HttpOnly".toList, [])] else [])
  else
    [(c.name, c.value)] ++ (if c.comment = [] then [] else [("Comment".toList, c.comment)]) ++ (if c.domain = [] then [] else [("Domain".toList, c.domain)])
      ++ (if c.path = [] then [] else [("Path".toList, c.path)]) ++ (if c.maxAge = -1 then [] else [("Max-Age".toList, e.dec c.maxAge)]) ++ sameField c.sameSite
      ++ (if c.secure then [("Secure".toList, [])] else []) ++ (if c.httpOnly then [("HttpOnly".toList, [])] else []) ++ [("Version".toList, "1".toList)]

/-- No semicolons and no quotes. -/
def Plain (s : Str) : Prop := ';' ∉ s ∧ '"' ∉ s

structure Cookie.Clean (c : Cookie) : Prop where
  name : Plain c.name
  eq : '=' ∉ c.name
  sp : c.name.head? ≠ some ' '
  name0 : c.name ≠ []
  value : Plain c.value
  value0 : c.value ≠ []
  comment : Plain c.comment
  domain : Plain c.domain
  path : Plain c.path

/-- What is expected of numbers and dates. -/
structure Env.Ok (e : Env) : Prop where
  date : ∀ t, Plain (e.date t)
  dec : ∀ n, Plain (e.dec n)
  epoch : ∀ t, e.epoch (e.date t) = some t
  stoi : ∀ n, e.stoi (e.dec n) = some n
  v1 : e.stoi "1".toList = some 1

/-! ## Lemmas -/

theorem parts_plain {a : Str} (h : ';' ∉ a) : parts a = [a] := by
  induction a with
  | nil => rfl
  | cons x a ih =>
    simp only [List.mem_cons, not_or] at h
    rw [parts, if_neg (fun e => h.1 e.symm), ih h.2]

theorem parts_append {a : Str} (h : ';' ∉ a) (r : Str) : parts (a ++ ';' :: r) = a :: parts r := by
  induction a with
  | nil => simp [parts]
  | cons x a ih =>
    simp only [List.mem_cons, not_or] at h
    rw [List.cons_append, parts, if_neg (fun e => h.1 e.symm), ih h.2]

/-- Parts are written with a semicolon and a space before them. -/
def glue (l : List Str) : Str := l.flatMap fun s => ';' :: ' ' :: s

theorem glue_append (a b : List Str) : glue (a ++ b) = glue a ++ glue b := by simp [glue]

theorem parts_glue {a : Str} {l : List Str} (h : ';' ∉ a) (hl : ∀ s ∈ l, ';' ∉ s) : parts (a ++ glue l) = a :: l.map (' ' :: ·) := by
  induction l generalizing a with
  | nil => simp [glue, parts_plain h]
  | cons s l ih =>
    have e : a ++ glue (s :: l) = a ++ ';' :: ((' ' :: s) ++ glue l) := by simp [glue]
    rw [e, parts_append h, ih]
    · rfl
    · simpa using hl s (by simp)
    · exact fun x hx => hl x (List.mem_cons_of_mem _ hx)

theorem unq_plain {v : Str} (h : '"' ∉ v) : unq v = v := by
  unfold unq
  split
  · simp at h
  · rfl

theorem unq_quoted (v : Str) : unq ('"' :: v ++ ['"']) = v := by
  simp [unq]

theorem takeWhile_all {n : Str} (h : '=' ∉ n) (r : Str) : (n ++ '=' :: r).takeWhile (· != '=') = n ∧ (n ++ '=' :: r).dropWhile (· != '=') = '=' :: r := by
  induction n with
  | nil => simp
  | cons a n ih =>
    simp only [List.mem_cons, not_or] at h
    have ha : (a != '=') = true := by simpa using fun e => h.1 e.symm
    simp [List.takeWhile_cons, List.dropWhile_cons, ha, ih h.2]

theorem dropSp {n : Str} (h : n.head? ≠ some ' ') : n.dropWhile (· == ' ') = n := by
  cases n with
  | nil => rfl
  | cons a n =>
    have : (a == ' ') = false := by simpa using h
    simp [List.dropWhile_cons, this]

theorem field_sp (s : Str) : field (' ' :: s) = field s := by simp [field]

theorem field_eq {n v : Str} (h1 : n.head? ≠ some ' ') (h0 : n ≠ []) (h2 : '=' ∉ n) : field (n ++ '=' :: v) = (n, unq v) := by
  have hd : (n ++ '=' :: v).dropWhile (· == ' ') = n ++ '=' :: v := by
    apply dropSp
    cases n with
    | nil => exact absurd rfl h0
    | cons a n => simpa using h1
  simp only [field, hd, takeWhile_all h2, List.drop_one, List.tail_cons]

theorem opt_glue (p : Prop) [Decidable p] (s : Str) : glue (if p then [] else [s]) = if p then [] else ';' :: ' ' :: s := by
  split <;> simp [glue]

theorem opt_glue' (b : Bool) (s : Str) : glue (if b then [s] else []) = if b then ';' :: ' ' :: s else [] := by
  cases b <;> simp [glue]

/-- The parts of a cookie. -/
def sameSegs (s : Int) : List Str := if s = 1 then ["SameSite=None".toList] else if s = 2 then ["SameSite=Lax".toList, "SameSite=Strict".toList] else if s = 3 then ["SameSite=Strict".toList] else []

theorem same_glue (s : Int) : sameSite s = glue (sameSegs s) := by
  unfold sameSite sameSegs
  split
  · simp [glue]
  · split
    · simp [glue]
    · split <;> simp [glue]

def segs0 (e : Env) (c : Cookie) : List Str :=
  (if c.domain = [] then [] else ["domain".toList ++ '=' :: c.domain]) ++ (if c.path = [] then [] else ["path".toList ++ '=' :: c.path])
    ++ (if c.maxAge = -1 then [] else ["expires".toList ++ '=' :: e.date (e.now + c.maxAge)]) ++ sameSegs c.sameSite
    ++ (if c.secure then ["secure".toList] else []) ++ (if c.httpOnly then ["HttpOnly".toList] else [])

def segs1 (e : Env) (c : Cookie) : List Str :=
  (if c.comment = [] then [] else ["Comment".toList ++ '=' :: ('"' :: c.comment ++ ['"'])]) ++ (if c.domain = [] then [] else ["Domain".toList ++ '=' :: ('"' :: c.domain ++ ['"'])])
    ++ (if c.path = [] then [] else ["Path".toList ++ '=' :: ('"' :: c.path ++ ['"'])]) ++ (if c.maxAge = -1 then [] else ["Max-Age".toList ++ '=' :: ('"' :: e.dec c.maxAge ++ ['"'])])
    ++ sameSegs c.sameSite ++ (if c.secure then ["Secure".toList] else []) ++ (if c.httpOnly then ["HttpOnly".toList] else []) ++ ["Version".toList ++ '=' :: ('"' :: "1".toList ++ ['"'])]

theorem zero_glue (e : Env) (c : Cookie) (h : ¬ (c.name = [] ∨ c.value = [])) : zero e c = (c.name ++ '=' :: c.value) ++ glue (segs0 e c) := by
  rw [zero, if_neg h, segs0]
  simp only [glue_append, opt_glue, opt_glue', same_glue, List.append_assoc]
  rfl

theorem one_glue (e : Env) (c : Cookie) (h : ¬ (c.name = [] ∨ c.value = [])) : one e c = (c.name ++ '=' :: ('"' :: c.value ++ ['"'])) ++ glue (segs1 e c) := by
  rw [one, if_neg h, segs1]
  simp only [glue_append, opt_glue, opt_glue', same_glue, List.append_assoc, List.cons_append, List.nil_append]
  rfl

theorem mem_opt {p : Prop} [Decidable p] {s x : Str} (h : x ∈ (if p then [] else [s])) : x = s := by
  split at h
  · cases h
  · simpa using h

theorem mem_opt' {b : Bool} {s x : Str} (h : x ∈ (if b then [s] else [])) : x = s := by
  cases b <;> simp at h
  exact h

theorem sameSegs_clean {s : Int} {x : Str} (h : x ∈ sameSegs s) : ';' ∉ x := by
  unfold sameSegs at h
  split at h
  · simp at h; subst h; decide
  · split at h
    · simp at h; rcases h with rfl | rfl <;> decide
    · split at h
      · simp at h; subst h; decide
      · cases h

theorem map_opt {p : Prop} [Decidable p] (s : Str) (f : Str → Str × Str) : (if p then [] else [s]).map f = if p then [] else [f s] := by split <;> rfl
theorem map_opt' {b : Bool} (s : Str) (f : Str → Str × Str) : (if b then [s] else []).map f = if b then [f s] else [] := by cases b <;> rfl

theorem same_fields {s : Int} (h : s ≠ 2) : (sameSegs s).map field = sameField s := by
  unfold sameSegs sameField
  rw [if_neg h, if_neg h]
  split
  · decide
  · split
    · decide
    · rfl

theorem read_glue {a : Str} {l : List Str} (h : ';' ∉ a) (hl : ∀ s ∈ l, ';' ∉ s) : read (a ++ glue l) = field a :: l.map field := by
  rw [read, parts_glue h hl, List.map_cons, List.map_map]
  congr 1

theorem segs0_clean {e : Env} (he : e.Ok) {c : Cookie} (hc : c.Clean) : ∀ s ∈ segs0 e c, ';' ∉ s := by
  intro s hs
  simp only [segs0, List.mem_append] at hs
  rcases hs with ((((h | h) | h) | h) | h) | h
  · rw [mem_opt h]; have := hc.domain.1; simpa using this
  · rw [mem_opt h]; have := hc.path.1; simpa using this
  · rw [mem_opt h]; have := (he.date (e.now + c.maxAge)).1; simpa using this
  · exact sameSegs_clean h
  · rw [mem_opt' h]; decide
  · rw [mem_opt' h]; decide

theorem segs1_clean {e : Env} (he : e.Ok) {c : Cookie} (hc : c.Clean) : ∀ s ∈ segs1 e c, ';' ∉ s := by
  intro s hs
  simp only [segs1, List.mem_append, List.mem_singleton] at hs
  rcases hs with ((((((h | h) | h) | h) | h) | h) | h) | h
  · rw [mem_opt h]; have := hc.comment.1; simpa using this
  · rw [mem_opt h]; have := hc.domain.1; simpa using this
  · rw [mem_opt h]; have := hc.path.1; simpa using this
  · rw [mem_opt h]; have := (he.dec c.maxAge).1; simpa using this
  · exact sameSegs_clean h
  · rw [mem_opt' h]; decide
  · rw [mem_opt' h]; decide
  · rw [h]; decide

/-! ## Properties -/

theorem read0 {e : Env} (he : e.Ok) {c : Cookie} (hc : c.Clean) (hs : c.sameSite ≠ 2) (hv : c.version = 0) : read (zero e c) = fields e c := by
  have hne : ¬ (c.name = [] ∨ c.value = []) := by
    rintro (h | h)
    · exact hc.name0 h
    · exact hc.value0 h
  have h1 := hc.name.1
  have h2 := hc.value.1
  rw [fields, if_pos hv, zero_glue e c hne, read_glue (by simpa using ⟨h1, h2⟩) (segs0_clean he hc), field_eq hc.sp hc.name0 hc.eq, unq_plain hc.value.2, segs0]
  simp only [List.map_append, map_opt, map_opt', same_fields hs]
  rw [field_eq (n := "domain".toList) (by decide) (by decide) (by decide), unq_plain hc.domain.2,
    field_eq (n := "path".toList) (by decide) (by decide) (by decide), unq_plain hc.path.2,
    field_eq (n := "expires".toList) (by decide) (by decide) (by decide), unq_plain (he.date _).2,
    show field "secure".toList = ("secure".toList, []) from by decide, show field "HttpOnly".toList = ("HttpOnly".toList, []) from by decide]
  simp only [List.append_assoc, List.cons_append, List.nil_append]

theorem read1 {e : Env} (he : e.Ok) {c : Cookie} (hc : c.Clean) (hs : c.sameSite ≠ 2) (hv : c.version ≠ 0) : read (one e c) = fields e c := by
  have hne : ¬ (c.name = [] ∨ c.value = []) := by
    rintro (h | h)
    · exact hc.name0 h
    · exact hc.value0 h
  have h1 := hc.name.1
  have h2 := hc.value.1
  rw [fields, if_neg hv, one_glue e c hne, read_glue (by simpa using ⟨h1, h2⟩) (segs1_clean he hc), field_eq hc.sp hc.name0 hc.eq, unq_quoted, segs1]
  simp only [List.map_append, map_opt, map_opt', same_fields hs, List.map_cons, List.map_nil]
  rw [field_eq (n := "Comment".toList) (by decide) (by decide) (by decide), unq_quoted,
    field_eq (n := "Domain".toList) (by decide) (by decide) (by decide), unq_quoted,
    field_eq (n := "Path".toList) (by decide) (by decide) (by decide), unq_quoted,
    field_eq (n := "Max-Age".toList) (by decide) (by decide) (by decide), unq_quoted,
    field_eq (n := "Version".toList) (by decide) (by decide) (by decide), unq_quoted,
    show field "Secure".toList = ("Secure".toList, []) from by decide, show field "HttpOnly".toList = ("HttpOnly".toList, []) from by decide]
  simp only [List.append_assoc, List.cons_append, List.nil_append]

/-- **C160.** A cookie is read as its name and value and the attributes that were set, in this order. -/
theorem C160_read {e : Env} (he : e.Ok) {c : Cookie} (hc : c.Clean) (hs : c.sameSite ≠ 2) : read (toString e c) = fields e c := by
  unfold toString
  split
  · rename_i h; exact read0 he hc hs h
  · rename_i h; exact read1 he hc hs h

/-- **C160.** Without name or value nothing is written. -/
theorem C160_empty (e : Env) {c : Cookie} (h : c.name = [] ∨ c.value = []) : toString e c = [] := by
  unfold toString zero one
  rw [if_pos h, if_pos h]
  split <;> rfl

/-- What a field is about. -/
inductive Kind where
  | comment | domain | path | age | secure | same | version | only | pair
deriving DecidableEq, Repr

/-- One part of `c` goes to `x`. -/
def copy (c x : Cookie) : Kind → Cookie
  | .comment => { x with comment := c.comment }
  | .domain => { x with domain := c.domain }
  | .path => { x with path := c.path }
  | .age => { x with maxAge := c.maxAge }
  | .secure => { x with secure := c.secure }
  | .same => { x with sameSite := c.sameSite }
  | .version => { x with version := c.version }
  | .only => { x with httpOnly := c.httpOnly }
  | .pair => { x with name := c.name, value := c.value }

theorem fold_copy (c : Cookie) (l : List Kind) (x : Cookie) : l.foldl (copy c) x =
    { version := if .version ∈ l then c.version else x.version, name := if .pair ∈ l then c.name else x.name, value := if .pair ∈ l then c.value else x.value,
      comment := if .comment ∈ l then c.comment else x.comment, domain := if .domain ∈ l then c.domain else x.domain, path := if .path ∈ l then c.path else x.path,
      secure := if .secure ∈ l then c.secure else x.secure, maxAge := if .age ∈ l then c.maxAge else x.maxAge, httpOnly := if .only ∈ l then c.httpOnly else x.httpOnly,
      sameSite := if .same ∈ l then c.sameSite else x.sameSite } := by
  induction l generalizing x with
  | nil => simp
  | cons k l ih =>
    rw [List.foldl_cons, ih]
    cases k <;> simp [copy]

/-- A name that is none of the attributes. -/
def Free (n : Str) : Prop := ∀ k ∈ ["comment", "domain", "path", "max-age", "secure", "expires", "SameSite", "Version", "HttpOnly"], ieq k n = false

theorem set_free {e : Env} {n v : Str} (h : Free n) (x : Cookie) : set e x (n, v) = some { x with name := n, value := v } := by
  simp only [Free, List.mem_cons, List.not_mem_nil, or_false, forall_eq_or_imp, forall_eq] at h
  obtain ⟨h1, h2, h3, h4, h5, h6, h7, h8, h9⟩ := h
  simp [set, h1, h2, h3, h4, h5, h6, h7, h8, h9]

theorem foldlM_copy {e : Env} {c : Cookie} {l : List (Str × Str)} (k : Str × Str → Kind) (h : ∀ f ∈ l, ∀ x, set e x f = some (copy c x (k f))) (x : Cookie) :
    l.foldlM (set e) x = some ((l.map k).foldl (copy c) x) := by
  induction l generalizing x with
  | nil => rfl
  | cons f l ih =>
    rw [List.foldlM_cons, h f (by simp) x]
    exact ih (fun g hg => h g (List.mem_cons_of_mem _ hg)) _

/-- What the name of a field is about. -/
def kind (f : Str × Str) : Kind :=
  if ieq "comment" f.1 then .comment else if ieq "domain" f.1 then .domain else if ieq "path" f.1 then .path else if ieq "max-age" f.1 then .age
  else if ieq "secure" f.1 then .secure else if ieq "SameSite" f.1 then .same else if ieq "Version" f.1 then .version else if ieq "HttpOnly" f.1 then .only else .pair

theorem set_comment (e : Env) (x : Cookie) (v : Str) : set e x ("Comment".toList, v) = some { x with comment := v } := rfl
theorem set_domain (e : Env) (x : Cookie) (v : Str) : set e x ("Domain".toList, v) = some { x with domain := v } := rfl
theorem set_path (e : Env) (x : Cookie) (v : Str) : set e x ("Path".toList, v) = some { x with path := v } := rfl
theorem set_age (e : Env) (x : Cookie) (v : Str) : set e x ("Max-Age".toList, v) = (e.stoi v).map fun n => { x with maxAge := n } := rfl
theorem set_secure (e : Env) (x : Cookie) (v : Str) : set e x ("Secure".toList, v) = some { x with secure := true } := rfl
theorem set_same (e : Env) (x : Cookie) (v : Str) : set e x ("SameSite".toList, v) = some { x with sameSite := parseSame v } := rfl
theorem set_version (e : Env) (x : Cookie) (v : Str) : set e x ("Version".toList, v) = (e.stoi v).map fun n => { x with version := n } := rfl
theorem set_only (e : Env) (x : Cookie) (v : Str) : set e x ("HttpOnly".toList, v) = some { x with httpOnly := true } := rfl
theorem kind_comment (v : Str) : kind ("Comment".toList, v) = .comment := rfl
theorem kind_domain (v : Str) : kind ("Domain".toList, v) = .domain := rfl
theorem kind_path (v : Str) : kind ("Path".toList, v) = .path := rfl
theorem kind_age (v : Str) : kind ("Max-Age".toList, v) = .age := rfl
theorem kind_secure (v : Str) : kind ("Secure".toList, v) = .secure := rfl
theorem kind_same (v : Str) : kind ("SameSite".toList, v) = .same := rfl
theorem kind_version (v : Str) : kind ("Version".toList, v) = .version := rfl
theorem kind_only (v : Str) : kind ("HttpOnly".toList, v) = .only := rfl

theorem mem_optf {p : Prop} [Decidable p] {s x : Str × Str} (h : x ∈ (if p then [] else [s])) : x = s := by
  split at h
  · cases h
  · exact List.mem_singleton.mp h

theorem mem_optf' {b : Bool} {s x : Str × Str} (h : x ∈ (if b then [s] else [])) : b = true ∧ x = s := by
  cases b
  · cases h
  · exact ⟨rfl, List.mem_singleton.mp h⟩

theorem map_optk {p : Prop} [Decidable p] (s : Str × Str) : (if p then [] else [s]).map kind = if p then [] else [kind s] := by split <;> rfl
theorem map_optk' {b : Bool} (s : Str × Str) : (if b then [s] else []).map kind = if b then [kind s] else [] := by cases b <;> rfl

theorem same_parse {s : Int} {f : Str × Str} (hs : s = 0 ∨ s = 1 ∨ s = 3) (h : f ∈ sameField s) : ∃ v, f = ("SameSite".toList, v) ∧ parseSame v = s := by
  rcases hs with rfl | rfl | rfl
  · cases h
  · exact ⟨_, List.mem_singleton.mp (show f ∈ [("SameSite".toList, "None".toList)] from h), by decide⟩
  · exact ⟨_, List.mem_singleton.mp (show f ∈ [("SameSite".toList, "Strict".toList)] from h), by decide⟩

theorem same_kinds {s : Int} (hs : s = 0 ∨ s = 1 ∨ s = 3) : (sameField s).map kind = if s = 0 then [] else [.same] := by
  rcases hs with h | h | h <;> rw [h] <;> rfl

theorem kind_free {n : Str} (h : Free n) (v : Str) : kind (n, v) = .pair := by
  simp only [Free, List.mem_cons, List.not_mem_nil, or_false, forall_eq_or_imp, forall_eq] at h
  obtain ⟨h1, h2, h3, h4, h5, h6, h7, h8, h9⟩ := h
  simp [kind, h1, h2, h3, h4, h5, h7, h8, h9]

theorem set_fields {e : Env} (he : e.Ok) {c : Cookie} (hv : c.version = 1) (hf : Free c.name) (hs : c.sameSite = 0 ∨ c.sameSite = 1 ∨ c.sameSite = 3) :
    ∀ f ∈ fields e c, ∀ x, set e x f = some (copy c x (kind f)) := by
  intro f hm x
  rw [fields, if_neg (by omega)] at hm
  simp only [List.mem_append, List.mem_singleton] at hm
  rcases hm with (((((((h | h) | h) | h) | h) | h) | h) | h) | h
  · rw [h, set_free hf, kind_free hf, copy]
  · rw [mem_optf h, set_comment, kind_comment, copy]
  · rw [mem_optf h, set_domain, kind_domain, copy]
  · rw [mem_optf h, set_path, kind_path, copy]
  · rw [mem_optf h, set_age, kind_age, he.stoi, copy, Option.map_some]
  · obtain ⟨v, rfl, hp⟩ := same_parse hs h
    rw [set_same, kind_same, copy, hp]
  · obtain ⟨hb, rfl⟩ := mem_optf' h
    rw [set_secure, kind_secure, copy, hb]
  · obtain ⟨hb, rfl⟩ := mem_optf' h
    rw [set_only, kind_only, copy, hb]
  · rw [h, set_version, kind_version, he.v1, copy, hv, Option.map_some]

theorem kinds_fields (e : Env) {c : Cookie} (hv : c.version = 1) (hf : Free c.name) (hs : c.sameSite = 0 ∨ c.sameSite = 1 ∨ c.sameSite = 3) :
    (fields e c).map kind = [Kind.pair] ++ (if c.comment = [] then [] else [.comment]) ++ (if c.domain = [] then [] else [.domain]) ++ (if c.path = [] then [] else [.path])
      ++ (if c.maxAge = -1 then [] else [.age]) ++ (if c.sameSite = 0 then [] else [.same]) ++ (if c.secure then [.secure] else []) ++ (if c.httpOnly then [.only] else []) ++ [.version] := by
  rw [fields, if_neg (by omega)]
  simp only [List.map_append, List.map_cons, List.map_nil, kind_free hf, map_optk, map_optk', kind_comment, kind_domain, kind_path, kind_age, same_kinds hs, kind_secure, kind_only, kind_version]

/-- **C160.** A cookie of version 1 that was written and read is made again by the constructor, in whatever order the map has its fields. -/
theorem C160_back {e : Env} (he : e.Ok) {c : Cookie} (hc : c.Clean) (hv : c.version = 1) (hf : Free c.name) (hs : c.sameSite = 0 ∨ c.sameSite = 1 ∨ c.sameSite = 3)
    {l : List (Str × Str)} (hl : l.Perm (read (toString e c))) : make e l = some c := by
  rw [C160_read he hc (by omega)] at hl
  rw [make, foldlM_copy kind (fun f hm => set_fields he hv hf hs f (hl.mem_iff.mp hm)), fold_copy]
  have hk : ∀ k, k ∈ l.map kind ↔ k ∈ (fields e c).map kind := fun k => (hl.map kind).mem_iff
  simp only [hk]
  rw [kinds_fields e hv hf hs]
  have d1 : ∀ (p : Prop) [Decidable p] (a b : Kind), a ∈ (if p then [] else [b]) ↔ ¬ p ∧ a = b := by intro p _ a b; split <;> simp [*]
  have d2 : ∀ (p : Bool) (a b : Kind), a ∈ (if p then [b] else []) ↔ p = true ∧ a = b := by intro p a b; cases p <;> simp
  simp only [List.mem_append, List.mem_singleton, d1, d2]
  obtain ⟨version, name, value, comment, domain, path, secure, maxAge, httpOnly, sameSite⟩ := c
  simp only [reduceCtorEq, and_false, or_false, false_or, and_true, or_true, if_true, true_or, Option.some.injEq, Cookie.mk.injEq, true_and]
  refine ⟨?_, ?_, ?_, ?_, ?_, ?_, ?_⟩ <;> grind

/-- **C161.** `SameSite=Lax` is written with a second attribute `SameSite=Strict`. -/
theorem C161_lax_partial {e : Env} (he : e.Ok) {c : Cookie} (hc : c.Clean) (hs : c.sameSite = 2) :
    ∃ a b, read (toString e c) = a ++ [("SameSite".toList, "Lax".toList), ("SameSite".toList, "Strict".toList)] ++ b := by
  have hne : ¬ (c.name = [] ∨ c.value = []) := by
    rintro (h | h)
    · exact hc.name0 h
    · exact hc.value0 h
  have h1 := hc.name.1
  have h2 := hc.value.1
  have h3 : (sameSegs c.sameSite).map field = [("SameSite".toList, "Lax".toList), ("SameSite".toList, "Strict".toList)] := by rw [hs]; decide
  unfold toString
  split
  · rw [zero_glue e c hne, read_glue (by simpa using ⟨h1, h2⟩) (segs0_clean he hc), segs0]
    simp only [List.map_append, h3]
    exact ⟨field (c.name ++ '=' :: c.value) :: (_ ++ _ ++ _), _ ++ _, by simp only [List.append_assoc, List.cons_append]; rfl⟩
  · rw [one_glue e c hne, read_glue (by simpa using ⟨h1, h2⟩) (segs1_clean he hc), segs1]
    simp only [List.map_append, h3]
    exact ⟨field (c.name ++ '=' :: ('"' :: c.value ++ ['"'])) :: (_ ++ _ ++ _ ++ _), _ ++ _ ++ _, by simp only [List.append_assoc, List.cons_append]; rfl⟩

/-- **C161.** The age of a cookie read from `expires` is wrong by the difference of the two clocks. -/
theorem C161_expires_partial {e : Env} (he : e.Ok) (x : Cookie) (m : Int) : set e x ("expires".toList, e.date (e.now + m)) = some { x with maxAge := m + (e.now - e.steady) } := by
  show (match e.epoch (e.date (e.now + m)) with | none => some x | some t => some { x with maxAge := t - e.steady }) = _
  rw [he.epoch]
  simp only [Option.some.injEq]
  congr 1
  omega

/-- **C161.** Values are written as they are: one with a semicolon sets attributes. -/
theorem C161_inject_partial (e : Env) (d : Str) (hd : Plain d) : ∃ c : Cookie, c.domain = [] ∧ ("domain".toList, d) ∈ read (toString e c) := by
  refine ⟨{ name := "a".toList, value := "b; domain=".toList ++ d }, rfl, ?_⟩
  have : toString e { name := "a".toList, value := "b; domain=".toList ++ d } = ("a".toList ++ '=' :: "b".toList) ++ glue ["domain".toList ++ '=' :: d] := by
    simp [toString, zero, sameSite, glue]
  rw [this, read_glue (by decide) (by have := hd.1; simpa using this), List.map_cons, field_eq (n := "domain".toList) (by decide) (by decide) (by decide), unq_plain hd.2]
  simp

/-- Numbers and dates as they might be. -/
def demo : Env where
  now := 1700000000
  steady := 1000
  date t := (if 0 ≤ t then '+' else '-') :: List.replicate t.natAbs 'i'
  epoch s := match s with
    | '+' :: r => some r.length
    | '-' :: r => some (-r.length)
    | _ => none
  dec t := (if 0 ≤ t then '+' else '-') :: List.replicate t.natAbs 'i'
  stoi s := match s with
    | '+' :: r => some r.length
    | '-' :: r => some (-r.length)
    | '1' :: _ => some 1
    | _ => none

theorem demo_ok : demo.Ok := by
  refine ⟨fun t => ?_, fun t => ?_, fun t => ?_, fun t => ?_, rfl⟩
  · simp only [demo, Plain]
    constructor <;> split <;> simp
  · simp only [demo, Plain]
    constructor <;> split <;> simp
  · simp only [demo]
    by_cases h : 0 ≤ t
    · simp [h]; omega
    · simp [h]; omega
  · simp only [demo]
    by_cases h : 0 ≤ t
    · simp [h]; omega
    · simp [h]; omega

example : ∃ c : Cookie, c.Clean ∧ c.version = 1 ∧ Free c.name ∧ c.sameSite = 3 ∧ c.maxAge = 60 ∧ c.secure = true ∧
    make demo (read (toString demo c)).reverse = some c := by
  let c : Cookie := { version := 1, name := "id".toList, value := "x".toList, domain := "a.b".toList, sameSite := 3, maxAge := 60, secure := true }
  have hc : c.Clean := ⟨by simp [c, Plain], by simp [c], by simp [c], by simp [c], by simp [c, Plain], by simp [c], by simp [c, Plain], by simp [c, Plain], by simp [c, Plain]⟩
  have hf : Free c.name := by simp only [Free, c]; decide
  exact ⟨c, hc, rfl, hf, rfl, rfl, rfl, C160_back demo_ok hc rfl hf (.inr (.inr rfl)) (List.reverse_perm _)⟩

end Verif.Http.Cookie
