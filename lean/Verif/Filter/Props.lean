import Verif.Filter.FlowProofs
/-!
# C58 to C63: filters
-/

namespace Verif.Filter

/-- What calls are made with after the configuration `gs`, `ss` has been set up. -/
def setup (gs ss : List Filter) (v : Nat → Bool) : Env := ⟨globals gs, services (globals gs) ss, v⟩

/-- A configuration as the framework accepts it: proper filters, one set of points per name, at most 128 filters. -/
structure Config (gs ss : List Filter) : Prop where
  ok : ∀ f ∈ gs ++ ss, f.Ok
  names : SameName (gs ++ ss)
  small : gs.length + ss.length ≤ 128

/-- The configured order at pair `k`: global filters first, then those of the service that are not global too; the first
of each name counts. -/
def configured (gs ss : List Filter) (k : Nat) : List Filter :=
  wanting k (firsts [] gs) ++ wanting k (firsts (gs.map (·.name)) ss)

theorem firsts_length (known : List String) (fs : List Filter) : (firsts known fs).length ≤ fs.length := by
  induction fs generalizing known with
  | nil => simp [firsts]
  | cons f fs ih =>
    simp only [firsts]
    split
    · exact Nat.le_succ_of_le (ih _)
    · simp only [List.length_cons]; exact Nat.succ_le_succ (ih _)

theorem Config.order {gs ss : List Filter} (h : Config gs ss) (v : Nat → Bool) (k : Nat) :
    (setup gs ss v).order k = configured gs ss k := by
  have hg := globals_holds (gs := gs) (fun f hf => h.ok f (List.mem_append_left _ hf))
    (fun a ha b hb => h.names a (List.mem_append_left _ ha) b (List.mem_append_left _ hb))
  have hs := services_holds h.ok h.names
  show globals gs (2 * k) ++ services (globals gs) ss (2 * k) = _
  rw [(hg k).1, (hs k).1]
  rfl

theorem Config.env {gs ss : List Filter} (h : Config gs ss) (v : Nat → Bool) : (setup gs ss v).Ok := by
  refine ⟨(globals_holds (fun f hf => h.ok f (List.mem_append_left _ hf))
    (fun a ha b hb => h.names a (List.mem_append_left _ ha) b (List.mem_append_left _ hb))).mirror,
    (services_holds h.ok h.names).mirror, fun k => ?_⟩
  rw [h.order v k, configured, List.length_append]
  have h1 := List.length_filter_le (fun f => decide (2 * k ∈ f.points)) (firsts [] gs)
  have h2 := List.length_filter_le (fun f => decide (2 * k ∈ f.points)) (firsts (gs.map (·.name)) ss)
  have h3 := firsts_length [] gs
  have h4 := firsts_length (gs.map (·.name)) ss
  have := h.small
  simp only [wanting]
  omega

/-! ## C58 -/

/-- Run the filters of the pre point of pair `k`, then those of the post point. -/
def prePost (k : Nat) : Prog Unit := do
  run' (2 * k)
  run' (2 * k + 1)

/-- Whatever the filters answer: either all of them are called in the configured order and again in the reverse order, or
some filter rejects, and exactly those before it are called again. (The third possibility of `Paired`, that nobody is
called, is the first one with no filters.) No assertion fails. -/
theorem C58_chain {gs ss : List Filter} (h : Config gs ss) (v ch : Nat → Bool) (k : Nat) :
    ((prePost k).exec (setup gs ss v) ch {}).dead = false ∧
    (((prePost k).exec (setup gs ss v) ch {}).tr = pres k (configured gs ss k) ++ posts k (configured gs ss k) ∨
      ∃ a f b, configured gs ss k = a ++ f :: b ∧
        ((prePost k).exec (setup gs ss v) ch {}).tr = pres k a ++ [.pre f k true] ++ posts k a) := by
  have he := h.env v
  have h1 := runPre_end he k {} rfl
  rw [h.order v k] at h1
  show (runFilters (setup gs ss v) (2 * k + 1) (runFilters (setup gs ss v) (2 * k) {}).1).1.dead = false ∧ _
  show _ ∧ ((runFilters (setup gs ss v) (2 * k + 1) (runFilters (setup gs ss v) (2 * k) {}).1).1.tr = _ ∨
    ∃ a f b, _ ∧ (runFilters (setup gs ss v) (2 * k + 1) (runFilters (setup gs ss v) (2 * k) {}).1).1.tr = _)
  cases hr : (runFilters (setup gs ss v) (2 * k) {}).2 with
  | false =>
    obtain ⟨ht, hi⟩ := h1.ok hr
    rw [runPost_end he k _ h1.live _ (.inl ⟨by rw [hi], rfl⟩)]
    refine ⟨h1.live, .inl ?_⟩
    simp only [ht, List.nil_append, List.take_length, h.order v k]
  | true =>
    obtain ⟨a, f, b, ho, ht, hi⟩ := h1.rej hr
    rw [runPost_end he k _ h1.live a.length (.inr ⟨by rw [hi]; simp, by rw [h.order v k, ho]; simp⟩)]
    refine ⟨h1.live, .inr ⟨a, f, b, ho, ?_⟩⟩
    simp only [ht, List.nil_append, h.order v k, ho, List.take_left' rfl]

/-- A filter whose name is among the filters added before is refused, and nothing changes. -/
theorem C58_twice {gs ss : List Filter} {f : Filter} (h : Config (gs ++ [f]) ss) (hp : f.points ≠ []) (hf : f.name ∈ gs.map (·.name)) :
    addGlobal (globals gs) f = (globals gs, false) := by
  have hok : ∀ x ∈ gs, x.Ok := fun x hx => h.ok x (by simp [hx])
  have hg := globals_holds hok (fun a ha b hb => h.names a (by simp [ha]) b (by simp [hb]))
  have hfo : f.Ok := h.ok f (by simp)
  have hn := firsts_names (fs := gs) (known := []) (n := f.name)
  simp only [List.not_mem_nil, false_or] at hn
  cases hpp : f.points with
  | nil => exact absurd hpp hp
  | cons p ps =>
    have := (hg.named hfo (p := p) (by rw [hpp]; exact List.mem_cons_self ..)
      (fun g hg' hne => h.names g (by simp [firsts_sub hg']) f (by simp) hne)).2 (hn.2 hf)
    simp only [addGlobal, hpp, this, if_true]

theorem C58_twice_service {gs ss : List Filter} {f : Filter} (h : Config gs (ss ++ [f])) (hp : f.points ≠ [])
    (hf : f.name ∈ (gs ++ ss).map (·.name)) :
    addService (globals gs) (services (globals gs) ss) f = (services (globals gs) ss, false) := by
  have hok : ∀ x ∈ gs ++ ss, x.Ok := fun x hx => h.ok x (by simp only [List.mem_append] at hx ⊢; grind)
  have hsn : SameName (gs ++ ss) := fun a ha b hb =>
    h.names a (by simp only [List.mem_append] at ha ⊢; grind) b (by simp only [List.mem_append] at hb ⊢; grind)
  have hg := globals_holds (fun x hx => hok x (List.mem_append_left _ hx))
    (fun a ha b hb => hsn a (List.mem_append_left _ ha) b (List.mem_append_left _ hb))
  have hs := services_holds hok hsn
  have hfo : f.Ok := h.ok f (by simp)
  cases hpp : f.points with
  | nil => exact absurd hpp hp
  | cons p ps =>
    have hpm : p ∈ f.points := by rw [hpp]; exact List.mem_cons_self ..
    by_cases hfg : f.name ∈ gs.map (·.name)
    · have hn := firsts_names (fs := gs) (known := []) (n := f.name)
      simp only [List.not_mem_nil, false_or] at hn
      have := (hg.named hfo hpm (fun g hg' hne => h.names g (by simp [firsts_sub hg']) f (by simp) hne)).2 (hn.2 hfg)
      simp only [addService, hpp, this, if_true]
    · have hn := firsts_names (fs := ss) (known := gs.map (·.name)) (n := f.name)
      have hfs : f.name ∈ (firsts (gs.map (·.name)) ss).map (·.name) := by
        rcases hn.2 (by simpa only [List.map_append, List.mem_append] using hf) with hh | hh
        · exact absurd hh hfg
        · exact hh
      have := (hs.named hfo hpm (fun g hg' hne => h.names g (by simp [firsts_sub hg']) f (by simp) hne)).2 hfs
      simp only [addService, hpp, this, if_true]
      split <;> rfl

/-! ### An example -/

def exA : Filter := ⟨"a", [0, 1, 2, 3, 4, 5, 6, 7, 8, 9]⟩
def exB : Filter := ⟨"b", [0, 1, 2, 3, 4, 5, 6, 7, 8, 9]⟩
def exC : Filter := ⟨"c", [2, 3]⟩

theorem exOk {f : Filter} (h : f = exA ∨ f = exB ∨ f = exC) : f.Ok := by
  refine ⟨?_, ?_, ?_⟩
  · rcases h with rfl | rfl | rfl <;> decide
  · rcases h with rfl | rfl | rfl <;> decide
  · intro k
    rcases h with rfl | rfl | rfl <;> simp [exA, exB, exC] <;> omega

theorem exConfig : Config [exA, exB] [exC, exA] := by
  refine ⟨fun f hf => exOk (by simp at hf; grind), ?_, by decide⟩
  unfold SameName
  decide

example : configured [exA, exB] [exC, exA] 1 = [exA, exB, exC] := by decide
example : ((prePost 1).exec (setup [exA, exB] [exC, exA] fun _ => false) (fun _ => false) {}).tr =
    [.pre exA 1 false, .pre exB 1 false, .pre exC 1 false, .post exC 1, .post exB 1, .post exA 1] := by decide +kernel
example : ((prePost 1).exec (setup [exA, exB] [exC, exA] fun n => n == 2) (fun _ => false) {}).tr =
    [.pre exA 1 false, .pre exB 1 false, .pre exC 1 true, .post exB 1, .post exA 1] := by decide +kernel
example : ((prePost 1).exec (setup [exA, exB] [exC, exA] fun n => n == 1) (fun _ => false) {}).tr =
    [.pre exA 1 false, .pre exB 1 true, .post exA 1] := by decide +kernel

/-! ## C59: requests to RPC services -/

/-- The ways to answer for which the promises are kept: the method returns its response, or the user answers later with a
message (a future that becomes ready included), in both cases for two-way calls; or the method is synchronous and the call
one-way. -/
inductive Kept : Kind → Answer → Bool → Prop
  | sync (a : Answer) (oneway : Bool) : Kept .sync a oneway
  | deferred : Kept .deferred .data false
  | future : Kept .future .data false

theorem plainRpc (kind : Kind) (a : Answer) (disc fiber oneway : Bool) : (rpcServer kind a disc fiber oneway).plain = true := by
  cases kind <;> cases a <;> cases disc <;> cases fiber <;> cases oneway <;> decide +kernel

/-- All pairs of points that a request to an RPC service passes are treated as promised, whatever the filters answer and
whatever goes wrong. -/
theorem C59_pairs {gs ss : List Filter} (h : Config gs ss) (v ch : Nat → Bool) {kind : Kind} {a : Answer} {oneway : Bool}
    (hk : Kept kind a oneway) (fiber : Bool) {k : Nat} (hk4 : k < 4) :
    Paired (configured gs ss k) k ((rpcServer kind a true fiber oneway).exec (setup gs ss v) ch {}).tr := by
  rw [← h.order v k]
  refine check_pairs (h.env v) ch [0, 1, 2, 3] (plainRpc ..) ?_ (by simp; omega)
  cases hk with
  | sync a oneway => cases a <;> cases oneway <;> cases fiber <;> decide +kernel
  | deferred => cases fiber <;> decide +kernel
  | future => cases fiber <;> decide +kernel

/-- After a filter has rejected, the method is not called. -/
theorem C59_stops {gs ss : List Filter} (h : Config gs ss) (v ch : Nat → Bool) (kind : Kind) (a : Answer) (fiber oneway : Bool) :
    Stops ((rpcServer kind a true fiber oneway).exec (setup gs ss v) ch {}).tr := by
  refine check_stops (h.env v) ch (plainRpc ..) ?_
  cases kind <;> cases a <;> cases fiber <;> cases oneway <;> decide +kernel

/-- A two-way call gets one response, or one is given up; a one-way call gets none. -/
theorem C59_one_response {gs ss : List Filter} (h : Config gs ss) (v ch : Nat → Bool) (kind : Kind) (a : Answer) (disc fiber : Bool) :
    ((rpcServer kind a disc fiber false).exec (setup gs ss v) ch {}).tr.count .reply +
      ((rpcServer kind a disc fiber false).exec (setup gs ss v) ch {}).tr.count .lost = 1 := by
  refine check_one (h.env v) ch (plainRpc ..) ?_
  cases kind <;> cases a <;> cases fiber <;> cases disc <;> decide +kernel

theorem C59_no_response {gs ss : List Filter} (h : Config gs ss) (v ch : Nat → Bool) (kind : Kind) (a : Answer) (disc fiber : Bool) :
    Ev.reply ∉ ((rpcServer kind a disc fiber true).exec (setup gs ss v) ch {}).tr := by
  refine check_none (h.env v) ch (plainRpc ..) ?_
  cases kind <;> cases a <;> cases fiber <;> cases disc <;> decide +kernel

/-- The answers to the questions that make up an undisturbed call. -/
def calm : Nat → Bool := fun n => n == 0 || n == 1 || n == 4 || n == 8

example : ((rpcServer .sync .data true true false).exec (setup [exA] [] fun _ => false) calm {}).tr =
    [.pre exA 2 false, .post exA 2, .pre exA 0 false, .pre exA 1 false, .work, .post exA 1, .post exA 0, .pre exA 3 false,
      .post exA 3, .reply] := by decide +kernel

/-! ## C60: where pairs are broken -/

theorem count_proj {k : Nat} {tr : List Ev} {e : Ev} (h : e.at k = true) : (proj k tr).count e = tr.count e :=
  List.count_filter h

/-- Where the promise is kept, every filter gets as many calls at the post point as it got at the pre point without
rejecting. -/
theorem Paired.balanced {order : List Filter} {k : Nat} {tr : List Ev} (h : Paired order k tr) (f : Filter) :
    tr.count (.post f k) = tr.count (.pre f k false) := by
  rw [← count_proj (k := k) (e := .post f k) (by simp [Ev.at]), ← count_proj (k := k) (e := .pre f k false) (by simp [Ev.at])]
  have h1 : ∀ fs : List Filter, (pres k fs).count (.post f k) = 0 := fun fs => by simp [pres, List.count_eq_zero]
  have h2 : ∀ fs : List Filter, (posts k fs).count (.pre f k false) = 0 := fun fs => by simp [posts, List.count_eq_zero]
  have h3 : ∀ fs : List Filter, (posts k fs).count (.post f k) = (pres k fs).count (.pre f k false) := by
    intro fs
    simp only [posts, List.count_reverse]
    induction fs with
    | nil => rfl
    | cons g fs ih =>
      simp only [pres, List.map_cons, List.count_cons] at ih ⊢
      rw [ih]
      by_cases hg : g = f <;> simp [hg]
  rcases h with h | h | ⟨a, g, b, _, h⟩
  · rw [h]; rfl
  · rw [h, List.count_append, List.count_append, h1, h2, h3]; omega
  · rw [h]
    simp [List.count_append, h1, h2, h3]

/-- Answers, given as the numbers of the questions that are answered with yes; rejections, given as positions in the trace. -/
def yes (l : List Nat) (n : Nat) : Bool := decide (n ∈ l)

def exD : Filter := ⟨"d", [2, 3]⟩

theorem exConfigA : Config [exA] [] := by
  refine ⟨fun f hf => exOk (by simp at hf; grind), ?_, by decide⟩
  unfold SameName
  decide

theorem exConfigAB : Config [exA, exB] [] := by
  refine ⟨fun f hf => exOk (by simp at hf; grind), ?_, by decide⟩
  unfold SameName
  decide

/-- The promise for one flow: every configuration, all answers of filters and of the outside world. -/
def AlwaysPaired (p : Prog Unit) (k : Nat) : Prop :=
  ∀ gs ss, Config gs ss → ∀ v ch, Paired (configured gs ss k) k (p.exec (setup gs ss v) ch {}).tr

def AlwaysStops (p : Prog Unit) : Prop :=
  ∀ gs ss, Config gs ss → ∀ v ch, Stops (p.exec (setup gs ss v) ch {}).tr

theorem refute {p : Prog Unit} {k : Nat} {gs : List Filter} (h : Config gs []) (v ch : Nat → Bool) (f : Filter)
    (hc : ((p.exec (setup gs [] v) ch {}).tr.count (.post f k) == (p.exec (setup gs [] v) ch {}).tr.count (.pre f k false)) = false) :
    ¬AlwaysPaired p k := by
  intro ha
  have := (ha gs [] h v ch).balanced f
  rw [this] at hc
  simp at hc

/-- HTTP: a request that has waited too long has the post hooks of its filters run twice. -/
theorem C60_http_late_partial (fiber stream : Bool) : ¬AlwaysPaired (httpServer true fiber stream) 0 ∧ ¬AlwaysPaired (httpServer true fiber stream) 1 := by
  constructor
  · refine refute exConfigA (yes []) (yes []) exA ?_
    cases fiber <;> cases stream <;> decide +kernel
  · refine refute exConfigA (yes []) (yes []) exA ?_
    cases fiber <;> cases stream <;> decide +kernel

/-- HTTP: a request whose body cannot be read has post hooks run that had no pre hook. -/
theorem C60_http_body_partial : ((httpServer true true false).exec (setup [exA] [] (yes [])) (yes [0, 1, 3]) {}).tr =
    [.pre exA 2 false, .post exA 2, .post exA 1, .post exA 0, .pre exA 3 false, .post exA 3, .reply] := by decide +kernel

/-- A method that returns a future that fails: the post hooks of the invocation are not run. -/
theorem C60_future_partial (fiber : Bool) : ¬AlwaysPaired (rpcServer .future .status true fiber false) 1 := by
  refine refute exConfigA (yes []) (yes [0, 1, 4]) exA ?_
  cases fiber <;> decide +kernel

/-- A one-way call of a method that returns a future: the post hooks of the message are run twice. -/
theorem C60_oneway_partial (fiber : Bool) : ¬AlwaysPaired (rpcServer .future .data true fiber true) 0 := by
  refine refute exConfigA (yes []) (yes [0, 1, 4]) exA ?_
  cases fiber <;> decide +kernel

/-- A filter that rejects with the status `DECODE_ERROR`: those before it do not get their post hooks. -/
theorem C60_decode_partial (fiber : Bool) : ¬AlwaysPaired (rpcServer .sync .data false fiber false) 1 := by
  have h : Config [exC, exD] [] := by
    refine ⟨fun f hf => ?_, ?_, by decide⟩
    · simp only [List.append_nil, List.mem_cons, List.not_mem_nil, or_false] at hf
      rcases hf with rfl | rfl
      · exact exOk (.inr (.inr rfl))
      · refine ⟨by decide, by decide, fun k => ?_⟩
        simp [exD]; omega
    · unfold SameName
      decide
  refine refute h (yes [1]) (yes [0, 1, 4, 9]) exC ?_
  cases fiber <;> decide +kernel

/-- A stream to a method that does not exist: no post hooks. -/
theorem C60_stream_partial : ¬AlwaysPaired rpcStream 0 :=
  refute exConfigA (yes []) (yes [1]) exA (by decide +kernel)

/-- The hooks after writing a response are run, those before it are not. -/
theorem C60_io_partial : ¬AlwaysPaired messageWriteDone 4 :=
  refute exConfigA (yes []) (yes []) exA (by decide +kernel)

/-! ### What holds there nevertheless -/

theorem plainHttp (disc fiber stream : Bool) : (httpServer disc fiber stream).plain = true := by
  cases disc <;> cases fiber <;> cases stream <;> decide +kernel

/-- HTTP: the pairs around the queues are kept. -/
theorem C60_http_queues {disc fiber stream : Bool} {k : Nat} (hk : k = 2 ∨ k = 3) : AlwaysPaired (httpServer disc fiber stream) k := by
  intro gs ss h v ch
  rw [← h.order v k]
  refine check_pairs (h.env v) ch [2, 3] (plainHttp ..) ?_ (by simp; omega)
  cases disc <;> cases fiber <;> cases stream <;> decide +kernel

/-- HTTP: one response, or one is given up. -/
theorem C60_http_one {gs ss : List Filter} (h : Config gs ss) (v ch : Nat → Bool) (disc fiber stream : Bool) :
    ((httpServer disc fiber stream).exec (setup gs ss v) ch {}).tr.count .reply +
      ((httpServer disc fiber stream).exec (setup gs ss v) ch {}).tr.count .lost = 1 := by
  refine check_one (h.env v) ch (plainHttp ..) ?_
  cases disc <;> cases fiber <;> cases stream <;> decide +kernel

/-- Asynchronous HTTP streams keep the pairs, and send one response or give one up. -/
theorem C60_http_async {fiber : Bool} {k : Nat} (hk : k = 0 ∨ k = 1 ∨ k = 3) : AlwaysPaired (httpAsyncStream fiber) k := by
  intro gs ss h v ch
  rw [← h.order v k]
  refine check_pairs (h.env v) ch [0, 1, 3] (by cases fiber <;> decide +kernel) ?_ (by simp; omega)
  cases fiber <;> decide +kernel

theorem C60_http_async_one {gs ss : List Filter} (h : Config gs ss) (v ch : Nat → Bool) (fiber : Bool) :
    ((httpAsyncStream fiber).exec (setup gs ss v) ch {}).tr.count .reply +
      ((httpAsyncStream fiber).exec (setup gs ss v) ch {}).tr.count .lost = 1 := by
  refine check_one (h.env v) ch (by cases fiber <;> decide +kernel) ?_
  cases fiber <;> decide +kernel

/-- Of an RPC method that answers with a status only, or with filters that are not disciplined, all pairs but that of the
invocation are kept. -/
theorem C60_rpc_rest {kind : Kind} {a : Answer} {disc fiber : Bool} {k : Nat} (hk : k = 0 ∨ k = 2 ∨ k = 3) :
    AlwaysPaired (rpcServer kind a disc fiber false) k := by
  intro gs ss h v ch
  rw [← h.order v k]
  refine check_pairs (h.env v) ch [0, 2, 3] (plainRpc ..) ?_ (by simp; omega)
  cases kind <;> cases a <;> cases disc <;> cases fiber <;> decide +kernel

/-! ## C61: rejected requests that are processed -/

/-- If filters that reject leave an error status, HTTP services do not call their handlers after a rejection. -/
theorem C61_http {fiber stream : Bool} : AlwaysStops (httpServer true fiber stream) := by
  intro gs ss h v ch
  refine check_stops (h.env v) ch (plainHttp ..) ?_
  cases fiber <;> cases stream <;> decide +kernel

theorem refuteStops {p : Prog Unit} {gs : List Filter} (h : Config gs []) (v ch : Nat → Bool) {a b : List Ev} {f : Filter} {k : Nat}
    (hc : (p.exec (setup gs [] v) ch {}).tr = a ++ .pre f k true :: b) (hw : Ev.work ∈ b) : ¬AlwaysStops p :=
  fun ha => ha gs [] h v ch a f k b hc hw

/-- A filter that rejects before the request is queued but leaves the status alone: the request is processed, by RPC and by
HTTP services. -/
theorem C61_sched_partial : ¬AlwaysStops (rpcServer .sync .data false true false) ∧ ¬AlwaysStops (httpServer false true false) := by
  constructor
  · exact refuteStops (f := exA) (k := 2) (a := []) (b := [.pre exA 0 false, .pre exA 1 false, .work, .post exA 1, .post exA 0, .lost]) exConfigA
      (yes [0]) (yes [2, 4, 10]) (by decide +kernel) (by simp)
  · exact refuteStops (f := exA) (k := 2) (a := []) (b := [.pre exA 0 false, .pre exA 1 false, .work, .post exA 1, .post exA 0, .pre exA 3 false,
      .post exA 3, .reply]) exConfigA (yes [0]) (yes [7, 9]) (by decide +kernel) (by simp)

/-- The rejection of a stream when it arrives is ignored, whatever status the filter leaves. -/
theorem C61_stream_partial : ¬AlwaysStops (httpAsyncStream true) ∧ ¬AlwaysStops rpcStream := by
  constructor
  · exact refuteStops (f := exA) (k := 0) (a := []) (b := [.pre exA 1 false, .work, .post exA 1, .reply]) exConfigA (yes [0]) (yes [2]) (by decide +kernel) (by simp)
  · exact refuteStops (f := exA) (k := 0) (a := []) (b := [.work]) exConfigA (yes [0]) (yes []) (by decide +kernel) (by simp)

/-! ## C62: clients -/

/-- Two-way calls, with or without futures, and one-way calls of the proxies that do not serialize a request: both pairs. -/
theorem C62_pairs {k : Nat} (hk : k < 2) : AlwaysPaired clientUnary k ∧ AlwaysPaired clientAsync k ∧ AlwaysPaired clientOnewayRaw k := by
  refine ⟨fun gs ss h v ch => ?_, fun gs ss h v ch => ?_, fun gs ss h v ch => ?_⟩ <;> rw [← h.order v k]
  · exact check_pairs (h.env v) ch [0, 1] (by decide +kernel) (by decide +kernel) (by simp; omega)
  · exact check_pairs (h.env v) ch [0, 1] (by decide +kernel) (by decide +kernel) (by simp; omega)
  · exact check_pairs (h.env v) ch [0, 1] (by decide +kernel) (by decide +kernel) (by simp; omega)

/-- A request that a filter has rejected is not handed to the transport. -/
theorem C62_stops : AlwaysStops clientUnary ∧ AlwaysStops clientAsync ∧ AlwaysStops clientOnewayRaw ∧ AlwaysStops clientOneway ∧
    AlwaysStops clientStream := by
  refine ⟨fun gs ss h v ch => ?_, fun gs ss h v ch => ?_, fun gs ss h v ch => ?_, fun gs ss h v ch => ?_, fun gs ss h v ch => ?_⟩
  all_goals exact check_stops (h.env v) ch (by decide +kernel) (by decide +kernel)

example : (clientUnary.exec (setup [exA, exB] [] (yes [])) (yes []) {}).tr =
    [.pre exA 0 false, .pre exB 0 false, .pre exA 1 false, .pre exB 1 false, .work, .post exB 1, .post exA 1, .post exB 0,
      .post exA 0] := by decide +kernel
example : (clientAsync.exec (setup [exA, exB] [] (yes [1])) (yes []) {}).tr =
    [.pre exA 0 false, .pre exB 0 true, .post exA 0] := by decide +kernel

/-! ## C63: one-way and stream clients -/

/-- A one-way call whose request cannot be filled: the post hooks of the invocation are not run. -/
theorem C63_oneway_partial : ¬AlwaysPaired clientOneway 0 :=
  refute exConfigA (yes []) (yes [1]) exA (by decide +kernel)

/-- The inner pair is kept. -/
theorem C63_oneway_inner : AlwaysPaired clientOneway 1 := by
  intro gs ss h v ch
  rw [← h.order v 1]
  exact check_pairs (h.env v) ch [1] (by decide +kernel) (by decide +kernel) (by simp)

/-- A stream that a filter rejects: those before it do not get their post hooks. -/
theorem C63_stream_partial : ¬AlwaysPaired clientStream 0 ∧ ¬AlwaysPaired clientStream 1 :=
  ⟨refute exConfigAB (yes [1]) (yes []) exA (by decide +kernel), refute exConfigAB (yes [3]) (yes []) exA (by decide +kernel)⟩

end Verif.Filter
