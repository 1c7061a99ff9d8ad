import Verif.Filter.Flow
import Verif.Filter.ChainProofs
/-!
# A checker for flows, and that it is right

`check` follows all courses of a flow, keeping for each pair of points how far it has got. It does not know the filters;
the theorem `check_sound` is about all of them.
-/

namespace Verif.Filter

/-- How far a pair of points has got: not begun; all pre hooks run; a pre hook rejected; post hooks run too; anything
else. -/
inductive Phase where
  | fresh | ok | rej | closed | bad
  deriving DecidableEq

/-- What a phase means, about the context of a call. -/
def Phase.Means (e : Env) (k : Nat) (c : Ctx) : Phase → Prop
  | .fresh => c.idx k = -1 ∧ proj k c.tr = []
  | .ok => c.idx k = -1 ∧ proj k c.tr = pres k (e.order k)
  | .rej => ∃ a f b, e.order k = a ++ f :: b ∧ c.idx k = (a.length : Int) ∧ proj k c.tr = pres k a ++ [.pre f k true]
  | .closed => Paired (e.order k) k c.tr
  | .bad => True

def Phase.pre (r : Bool) : Phase → Phase
  | .fresh => if r then .rej else .ok
  | _ => .bad

def Phase.post : Phase → Phase
  | .ok => .closed
  | .rej => .closed
  | _ => .bad

/-- What the checker remembers of a course. -/
structure Abs where
  ph : Nat → Phase := fun _ => .fresh
  /-- some filter has rejected -/
  rejd : Bool := false
  /-- the work was done after that -/
  late : Bool := false
  replies : Nat := 0
  lost : Nat := 0

def Abs.run (a : Abs) (p : Nat) (r : Bool) : Abs :=
  if p % 2 = 0 then { a with ph := upd a.ph (p / 2) ((a.ph (p / 2)).pre r), rejd := a.rejd || r }
  else { a with ph := upd a.ph (p / 2) (a.ph (p / 2)).post }

def Abs.emit (a : Abs) : Ev → Abs
  | .work => { a with late := a.late || a.rejd }
  | .reply => { a with replies := a.replies + 1 }
  | .lost => { a with lost := a.lost + 1 }
  | _ => { a with ph := fun _ => .bad, late := true }

def Prog.check {α : Type} (fin : Abs → Bool) : Prog α → Abs → Bool
  | .ret _, a => fin a
  | .run p k, a => (k true).check fin (a.run p true) && (k false).check fin (a.run p false)
  | .emit e k, a => k.check fin (a.emit e)
  | .ask k, a => (k true).check fin a && (k false).check fin a

def isRej : Ev → Bool
  | .pre _ _ r => r
  | _ => false

/-- The checker's memory is right. -/
structure Rel (e : Env) (a : Abs) (c : Ctx) : Prop where
  live : c.dead = false
  ph : ∀ k, (a.ph k).Means e k c
  rejd : a.rejd = c.tr.any isRej
  late : a.late = false → Stops c.tr
  replies : a.replies = c.tr.count .reply
  lost : a.lost = c.tr.count .lost

theorem proj_append (k : Nat) (a b : List Ev) : proj k (a ++ b) = proj k a ++ proj k b := List.filter_append ..

theorem proj_pres (k : Nat) (fs : List Filter) : proj k (pres k fs) = pres k fs := by
  induction fs with
  | nil => rfl
  | cons f fs _ => simp [pres, proj, Ev.at]

theorem proj_pres_ne {k j : Nat} (h : k ≠ j) (fs : List Filter) : proj k (pres j fs) = [] := by
  simp [pres, proj, Ev.at, Ne.symm h]

theorem proj_posts (k : Nat) (fs : List Filter) : proj k (posts k fs) = posts k fs := by
  simp [posts, proj, List.filter_eq_self, Ev.at]

theorem proj_posts_ne {k j : Nat} (h : k ≠ j) (fs : List Filter) : proj k (posts j fs) = [] := by
  simp [posts, proj, Ev.at, Ne.symm h]

theorem Phase.Means.congr {e : Env} {k : Nat} {c c' : Ctx} {p : Phase} (h : p.Means e k c) (h1 : c'.idx k = c.idx k)
    (h2 : proj k c'.tr = proj k c.tr) : p.Means e k c' := by
  cases p <;> simp only [Phase.Means, Paired, h1, h2] at h ⊢ <;> exact h

theorem stops_append {a b : List Ev} (h : Stops a) (hb : Ev.work ∉ b) : Stops (a ++ b) := by
  intro x f k y he hy
  rcases List.append_eq_append_iff.1 he with ⟨z, h1, h2⟩ | ⟨z, h1, h2⟩
  · rw [h2] at hb
    exact hb (by simp [hy])
  · cases z with
    | nil => simp only [List.nil_append] at h2; rw [← h2] at hb; exact hb (by simp [hy])
    | cons w z =>
      simp only [List.cons_append, List.cons.injEq] at h2
      rw [h2.2, List.mem_append] at hy
      rcases hy with hy | hy
      · exact h x f k z (by rw [h1, h2.1]) hy
      · exact hb hy

theorem stops_of_no_rej {a b : List Ev} (h : a.any isRej = false) (hb : b.any isRej = false) : Stops (a ++ b) := by
  intro x f k y he
  have : (a ++ b).any isRej = true := by rw [he]; simp [isRej]
  rw [List.any_append, h, hb] at this
  simp at this

theorem work_pres {k : Nat} {fs : List Filter} : Ev.work ∉ pres k fs := by simp [pres]
theorem work_posts {k : Nat} {fs : List Filter} : Ev.work ∉ posts k fs := by simp [posts]
theorem rej_pres {k : Nat} {fs : List Filter} : (pres k fs).any isRej = false := by simp [pres, isRej]
theorem rej_posts {k : Nat} {fs : List Filter} : (posts k fs).any isRej = false := by simp [posts, isRej]
theorem count_pres {k : Nat} {fs : List Filter} {e : Ev} (h : e = .reply ∨ e = .lost) : (pres k fs).count e = 0 := by
  rcases h with rfl | rfl <;> simp [pres, List.count_eq_zero]
theorem count_posts {k : Nat} {fs : List Filter} {e : Ev} (h : e = .reply ∨ e = .lost) : (posts k fs).count e = 0 := by
  rcases h with rfl | rfl <;> simp [posts, List.count_eq_zero]

theorem Rel.pre {e : Env} (he : e.Ok) {a : Abs} {c : Ctx} (h : Rel e a c) (k : Nat) :
    Rel e (a.run (2 * k) (runFilters e (2 * k) c).2) (runFilters e (2 * k) c).1 := by
  have h1 := runPre_end he k c h.live
  generalize (runFilters e (2 * k) c).1 = c' at h1
  generalize (runFilters e (2 * k) c).2 = r at h1
  have h0 : (2 * k) % 2 = 0 := by omega
  have hk : 2 * k / 2 = k := by omega
  simp only [Abs.run, h0, if_true, hk]
  cases r with
  | false =>
    obtain ⟨ht, hi⟩ := h1.ok rfl
    refine ⟨h1.live, ?_, ?_, ?_, ?_, ?_⟩
    · intro j
      by_cases hj : j = k
      · subst hj
        show Phase.Means e j c' (upd _ _ _ _)
        rw [upd_same]
        have hp := h.ph j
        cases hph : a.ph j <;> simp only [Phase.pre, Phase.Means, Bool.false_eq_true, if_false]
        rw [hph] at hp
        exact ⟨by rw [hi]; exact hp.1, by rw [ht, proj_append, hp.2, proj_pres]; rfl⟩
      · show Phase.Means e j c' (upd _ _ _ _)
        rw [upd_ne _ _ hj]
        exact (h.ph j).congr (by rw [hi]) (by rw [ht, proj_append, proj_pres_ne hj, List.append_nil])
    · show (a.rejd || false) = _
      rw [ht, List.any_append, rej_pres, ← h.rejd]
    · intro hl; rw [ht]; exact stops_append (h.late hl) work_pres
    · rw [ht, List.count_append, count_pres (.inl rfl)]; exact h.replies
    · rw [ht, List.count_append, count_pres (.inr rfl)]; exact h.lost
  | true =>
    obtain ⟨x, f, y, ho, ht, hi⟩ := h1.rej rfl
    refine ⟨h1.live, ?_, ?_, ?_, ?_, ?_⟩
    · intro j
      by_cases hj : j = k
      · subst hj
        show Phase.Means e j c' (upd _ _ _ _)
        rw [upd_same]
        have hp := h.ph j
        cases hph : a.ph j <;> simp only [Phase.pre, Phase.Means, if_true]
        rw [hph] at hp
        refine ⟨x, f, y, ho, by rw [hi, upd_same]; simp, ?_⟩
        rw [ht, proj_append, proj_append, hp.2, proj_pres]
        simp [proj, Ev.at]
      · show Phase.Means e j c' (upd _ _ _ _)
        rw [upd_ne _ _ hj]
        refine (h.ph j).congr (by rw [hi, upd_ne _ _ hj]) ?_
        rw [ht, proj_append, proj_append, proj_pres_ne hj]
        simp [proj, Ev.at, Ne.symm hj]
    · show (a.rejd || true) = _
      rw [ht]; simp [isRej]
    · intro hl; rw [ht, List.append_assoc]; exact stops_append (h.late hl) (by simp [pres])
    · rw [ht, List.count_append, List.count_append, count_pres (.inl rfl)]; simpa using h.replies
    · rw [ht, List.count_append, List.count_append, count_pres (.inr rfl)]; simpa using h.lost

/-- Whatever index is stored, a run over a post point only adds post hooks. -/
theorem runPost_any {e : Env} (k : Nat) (c : Ctx) (hd : c.dead = false) :
    ∃ fs, (runFilters e (2 * k + 1) c).1 = { c with tr := c.tr ++ posts k fs } := by
  have h1 : (2 * k + 1) % 2 ≠ 0 := by omega
  have hk : (2 * k + 1) / 2 = k := by omega
  have hm : ∀ l : List Filter, (l.map fun f => Ev.post f k) = posts k l.reverse := by
    intro l; simp [posts]
  simp only [runFilters, hd, Bool.false_eq_true, if_false, h1, hk]
  generalize (if c.idx k = -1 then _ else _ : Nat) = x
  by_cases hc : (e.g (2 * k + 1)).length < x
  · rw [if_pos hc]
    simp only []
    generalize List.drop _ (e.s (2 * k + 1)) = l1
    generalize List.drop _ (e.g (2 * k + 1)) = l2
    refine ⟨(l1 ++ l2).reverse, ?_⟩
    have h2 := postLoop_end e k l1 false c hd
    rw [postLoop_end _ _ _ _ _ (by rw [h2]; exact hd), h2, ← hm]
    simp [hd]
  · rw [if_neg hc]
    simp only []
    generalize List.drop _ (e.g (2 * k + 1)) = l2
    exact ⟨l2.reverse, by rw [postLoop_end _ _ _ _ _ hd, ← hm]; simp [hd]⟩

theorem Rel.post {e : Env} (he : e.Ok) {a : Abs} {c : Ctx} (h : Rel e a c) (k : Nat) (r : Bool) :
    Rel e (a.run (2 * k + 1) r) (runFilters e (2 * k + 1) c).1 := by
  have h1 : ¬ (2 * k + 1) % 2 = 0 := by omega
  have hk : (2 * k + 1) / 2 = k := by omega
  simp only [Abs.run, h1, if_false, hk]
  obtain ⟨fs, hc⟩ := runPost_any (e := e) k c h.live
  have hph : ((a.ph k).post).Means e k (runFilters e (2 * k + 1) c).1 := by
    have hp := h.ph k
    cases hph : a.ph k <;> simp only [Phase.post, Phase.Means]
    · rw [hph] at hp
      rw [runPost_end he k c h.live _ (.inl ⟨hp.1, rfl⟩)]
      refine .inr (.inl ?_)
      show proj k (c.tr ++ _) = _
      rw [proj_append, hp.2, proj_posts, List.take_length]
    · rw [hph] at hp
      obtain ⟨x, f, y, ho, hi, ht⟩ := hp
      rw [runPost_end he k c h.live x.length (.inr ⟨hi, by rw [ho]; simp⟩)]
      refine .inr (.inr ⟨x, f, y, ho, ?_⟩)
      show proj k (c.tr ++ _) = _
      rw [proj_append, ht, proj_posts, ho, List.take_left']
      rfl
  rw [hc] at hph ⊢
  refine ⟨h.live, ?_, ?_, ?_, ?_, ?_⟩
  · intro j
    show Phase.Means e j _ (upd _ _ _ _)
    by_cases hj : j = k
    · subst hj; rw [upd_same]; exact hph
    · rw [upd_ne _ _ hj]
      refine (h.ph j).congr rfl ?_
      show proj j (c.tr ++ _) = _
      rw [proj_append, proj_posts_ne hj, List.append_nil]
  · show a.rejd = (c.tr ++ _).any isRej
    rw [List.any_append, rej_posts, Bool.or_false]; exact h.rejd
  · intro hl; exact stops_append (h.late hl) work_posts
  · show a.replies = (c.tr ++ _).count .reply
    rw [List.count_append, count_posts (.inl rfl)]; exact h.replies
  · show a.lost = (c.tr ++ _).count .lost
    rw [List.count_append, count_posts (.inr rfl)]; exact h.lost

theorem Rel.run {e : Env} (he : e.Ok) {a : Abs} {c : Ctx} (h : Rel e a c) (p : Nat) :
    Rel e (a.run p (runFilters e p c).2) (runFilters e p c).1 := by
  rcases Nat.mod_two_eq_zero_or_one p with hp | hp
  · have : p = 2 * (p / 2) := by omega
    rw [this]; exact h.pre he _
  · have : p = 2 * (p / 2) + 1 := by omega
    rw [this]; exact h.post he _ _

theorem Rel.emit {e : Env} {a : Abs} {c : Ctx} (h : Rel e a c) (ev : Ev) (hev : ev = .work ∨ ev = .reply ∨ ev = .lost) :
    Rel e (a.emit ev) (c.emit ev) := by
  rw [Ctx.emit_live h.live]
  have hq : ∀ j, proj j (c.tr ++ [ev]) = proj j c.tr := by
    intro j; rcases hev with rfl | rfl | rfl <;> simp [proj, Ev.at]
  have hr : (c.tr ++ [ev]).any isRej = c.tr.any isRej := by rcases hev with rfl | rfl | rfl <;> simp [isRej]
  have hph : ∀ k, (a.ph k).Means e k { c with tr := c.tr ++ [ev] } := fun k => (h.ph k).congr rfl (hq k)
  rcases hev with rfl | rfl | rfl
  · refine ⟨h.live, hph, h.rejd.trans hr.symm, fun hl => ?_, ?_, ?_⟩
    · simp only [Abs.emit, Bool.or_eq_false_iff] at hl
      exact stops_of_no_rej (h.rejd.symm.trans hl.2) rfl
    · show a.replies = (c.tr ++ _).count .reply
      rw [List.count_append]; simpa using h.replies
    · show a.lost = (c.tr ++ _).count .lost
      rw [List.count_append]; simpa using h.lost
  · refine ⟨h.live, hph, h.rejd.trans hr.symm, fun hl => stops_append (h.late hl) (by simp), ?_, ?_⟩
    · show a.replies + 1 = (c.tr ++ _).count .reply
      rw [List.count_append, h.replies]; rfl
    · show a.lost = (c.tr ++ _).count .lost
      rw [List.count_append]; simpa using h.lost
  · refine ⟨h.live, hph, h.rejd.trans hr.symm, fun hl => stops_append (h.late hl) (by simp), ?_, ?_⟩
    · show a.replies = (c.tr ++ _).count .reply
      rw [List.count_append]; simpa using h.replies
    · show a.lost + 1 = (c.tr ++ _).count .lost
      rw [List.count_append, h.lost]; rfl

/-- Flows emit no filter calls by themselves. -/
def Prog.plain {α : Type} : Prog α → Bool
  | .ret _ => true
  | .run _ k => (k true).plain && (k false).plain
  | .emit e k => (match e with | .work => true | .reply => true | .lost => true | _ => false) && k.plain
  | .ask k => (k true).plain && (k false).plain

/-- If the checker accepts, every course of the flow ends in a state that it accepts. -/
theorem check_sound {α : Type} {e : Env} (he : e.Ok) (ch : Nat → Bool) (fin : Abs → Bool) (p : Prog α) (a : Abs) (c : Ctx)
    (hr : Rel e a c) (hp : p.plain = true) (h : p.check fin a = true) : ∃ a', fin a' = true ∧ Rel e a' (p.exec e ch c) := by
  induction p generalizing a c with
  | ret v => exact ⟨a, h, hr⟩
  | run p k ih =>
    simp only [Prog.check, Bool.and_eq_true] at h
    simp only [Prog.plain, Bool.and_eq_true] at hp
    simp only [Prog.exec]
    have h1 := hr.run he p
    cases hb : (runFilters e p c).2 with
    | true => rw [hb] at h1; exact ih true _ _ h1 hp.1 h.1
    | false => rw [hb] at h1; exact ih false _ _ h1 hp.2 h.2
  | emit ev k ih =>
    simp only [Prog.plain, Bool.and_eq_true] at hp
    simp only [Prog.check] at h
    refine ih _ _ (hr.emit ev ?_) hp.2 h
    have := hp.1
    cases ev <;> simp at this ⊢
  | ask k ih =>
    simp only [Prog.check, Bool.and_eq_true] at h
    simp only [Prog.plain, Bool.and_eq_true] at hp
    simp only [Prog.exec]
    have hr' : Rel e a { c with n := c.n + 1 } := ⟨hr.live, fun k => (hr.ph k).congr rfl rfl, hr.rejd, hr.late, hr.replies, hr.lost⟩
    cases hb : ch c.n with
    | true => exact ih true _ _ hr' hp.1 h.1
    | false => exact ih false _ _ hr' hp.2 h.2

theorem rel_init (e : Env) : Rel e {} {} :=
  ⟨rfl, fun k => ⟨rfl, rfl⟩, rfl, fun _ => by intro a f k b h; simp at h, rfl, rfl⟩

/-! ## What is checked -/

def Phase.done : Phase → Bool
  | .fresh => true
  | .closed => true
  | _ => false

/-- The pairs of `ks` are treated as promised. -/
def finPairs (ks : List Nat) (a : Abs) : Bool := ks.all fun k => (a.ph k).done

def finStops (a : Abs) : Bool := !a.late

def finOne (a : Abs) : Bool := a.replies + a.lost == 1
def finNone (a : Abs) : Bool := a.replies == 0

theorem Phase.Means.done {e : Env} {k : Nat} {c : Ctx} {p : Phase} (h : p.Means e k c) (hd : p.done = true) :
    Paired (e.order k) k c.tr := by
  cases p with
  | fresh => exact .inl h.2
  | closed => exact h
  | _ => simp [Phase.done] at hd

theorem check_pairs {α : Type} {e : Env} (he : e.Ok) (ch : Nat → Bool) {p : Prog α} (ks : List Nat) (hp : p.plain = true)
    (h : p.check (finPairs ks) {} = true) {k : Nat} (hk : k ∈ ks) : Paired (e.order k) k (p.exec e ch {}).tr := by
  obtain ⟨a, ha, hr⟩ := check_sound he ch _ p {} {} (rel_init e) hp h
  simp only [finPairs, List.all_eq_true] at ha
  exact (hr.ph k).done (ha k hk)

theorem check_stops {α : Type} {e : Env} (he : e.Ok) (ch : Nat → Bool) {p : Prog α} (hp : p.plain = true)
    (h : p.check finStops {} = true) : Stops (p.exec e ch {}).tr := by
  obtain ⟨a, ha, hr⟩ := check_sound he ch _ p {} {} (rel_init e) hp h
  exact hr.late (by simpa [finStops] using ha)

theorem check_one {α : Type} {e : Env} (he : e.Ok) (ch : Nat → Bool) {p : Prog α} (hp : p.plain = true)
    (h : p.check finOne {} = true) : (p.exec e ch {}).tr.count .reply + (p.exec e ch {}).tr.count .lost = 1 := by
  obtain ⟨a, ha, hr⟩ := check_sound he ch _ p {} {} (rel_init e) hp h
  rw [← hr.replies, ← hr.lost]
  simpa [finOne] using ha

theorem check_none {α : Type} {e : Env} (he : e.Ok) (ch : Nat → Bool) {p : Prog α} (hp : p.plain = true)
    (h : p.check finNone {} = true) : Ev.reply ∉ (p.exec e ch {}).tr := by
  obtain ⟨a, ha, hr⟩ := check_sound he ch _ p {} {} (rel_init e) hp h
  have h0 : a.replies = 0 := by simpa [finNone] using ha
  rw [hr.replies] at h0
  exact List.count_eq_zero.1 h0

theorem check_live {α : Type} {e : Env} (he : e.Ok) (ch : Nat → Bool) {p : Prog α} (hp : p.plain = true)
    (h : p.check (fun _ => true) {} = true) : (p.exec e ch {}).dead = false := by
  obtain ⟨a, _, hr⟩ := check_sound he ch _ p {} {} (rel_init e) hp h
  exact hr.live

end Verif.Filter
