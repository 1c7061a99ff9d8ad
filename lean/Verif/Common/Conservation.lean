import Verif.Common.Linearizable
/-!
# Counting over linearizable histories

If every step of the sequential specification changes a measure of the abstract state by at most a contribution
`f op` of the call plus a contribution `g r` of the result, then over a whole history the measure changes by at
most the sum of the contributions of the visible calls and returns, up to operations in progress.
-/

namespace Verif.Lin

/-- `x 0 + … + x (n-1)`. -/
def isum (n : Nat) (x : Nat → Int) : Int :=
  match n with
  | 0 => 0
  | n + 1 => isum n x + x n

theorem isum_congr {n : Nat} {x y : Nat → Int} (h : ∀ t, t < n → x t = y t) : isum n x = isum n y := by
  induction n with
  | zero => rfl
  | succ n ih => rw [isum, isum, ih (fun t ht => h t (by omega)), h n (by omega)]

theorem isum_upd {n : Nat} (x : Nat → Int) {t : Nat} (v : Int) (ht : t < n) :
    isum n (upd x t v) = isum n x - x t + v := by
  induction n with
  | zero => omega
  | succ n ih =>
    simp only [isum]
    by_cases e : t = n
    · subst e
      rw [upd_same, isum_congr (y := x) (fun s hs => upd_ne _ _ (by omega))]
      omega
    · rw [ih (by omega), upd_ne _ _ (Ne.symm e)]
      omega

theorem isum_nonneg {n : Nat} {x : Nat → Int} (h : ∀ t, 0 ≤ x t) : 0 ≤ isum n x := by
  induction n with
  | zero => exact Int.le_refl _
  | succ n ih => have := h n; rw [isum]; omega

theorem isum_zero {n : Nat} {x : Nat → Int} (h : ∀ t, x t = 0) : isum n x = 0 := by
  induction n with
  | zero => rfl
  | succ n ih => rw [isum, ih, h n]; rfl

variable {Op Res Abs : Type}

/-- Contribution of a visible event. -/
def contrib (f : Op → Int) (g : Res → Int) : Vis Op Res → Int
  | .call _ op => f op
  | .ret _ r => g r

/-- Contribution of a visible history. -/
def total (f : Op → Int) (g : Res → Int) (h : List (Vis Op Res)) : Int :=
  (h.map (contrib f g)).foldr (· + ·) 0

theorem total_nil (f : Op → Int) (g : Res → Int) : total f g ([] : List (Vis Op Res)) = 0 := rfl
theorem total_cons (f : Op → Int) (g : Res → Int) (e : Vis Op Res) (h : List (Vis Op Res)) :
    total f g (e :: h) = contrib f g e + total f g h := rfl

/-- What an operation in progress still owes. -/
def owed (f : Op → Int) (g : Res → Int) : Phase Op Res → Int
  | .idle => 0
  | .called op => f op
  | .effected r => - g r

theorem owed_idle (f : Op → Int) (g : Res → Int) : owed f g .idle = 0 := rfl
theorem owed_called (f : Op → Int) (g : Res → Int) (op : Op) : owed f g (.called op) = f op := rfl
theorem owed_effected (f : Op → Int) (g : Res → Int) (r : Res) : owed f g (.effected r) = - g r := rfl

/-- The thread of an extended event. -/
def Ext.thread : Ext Op Res → Nat
  | .call t _ => t
  | .eff t _ _ => t
  | .ret t _ => t

theorem run_bound {spec : Spec Op Res Abs} (f : Op → Int) (g : Res → Int) (w : Abs → Int)
    (hspec : ∀ a op r a', spec a op r a' → w a' ≤ w a + f op + g r)
    {s s' : State Op Res Abs} {ext : List (Ext Op Res)} (hr : Run spec s ext s') (n : Nat)
    (hn : ∀ e ∈ ext, e.thread < n) :
    w s'.abs + isum n (fun t => owed f g (s'.phase t)) ≤
      w s.abs + isum n (fun t => owed f g (s.phase t)) + total f g (ext.filterMap Ext.vis) := by
  have push : ∀ (s : State Op Res Abs) (t : Nat) (p : Phase Op Res), t < n →
      isum n (fun t' => owed f g (upd s.phase t p t')) =
        isum n (fun t => owed f g (s.phase t)) - owed f g (s.phase t) + owed f g p := by
    intro s t p ht
    rw [← isum_upd (fun t => owed f g (s.phase t)) (owed f g p) ht]
    apply isum_congr
    intro t' _
    by_cases e : t' = t
    · subst e; rw [upd_same, upd_same]
    · rw [upd_ne _ _ e, upd_ne _ _ e]
  induction hr with
  | nil s => simp only [List.filterMap_nil, total_nil]; omega
  | @call s l s' t op h r ih =>
    have ih := ih (fun e he => hn e (List.mem_cons_of_mem _ he))
    have ht : t < n := hn _ List.mem_cons_self
    simp only [List.filterMap_cons, Ext.vis, total_cons, contrib]
    rw [push s t (.called op) ht] at ih
    simp only [h, owed_idle, owed_called] at ih
    omega
  | @eff s l s' t op res a' h hs r ih =>
    have ih := ih (fun e he => hn e (List.mem_cons_of_mem _ he))
    have ht : t < n := hn _ List.mem_cons_self
    have := hspec _ _ _ _ hs
    simp only [List.filterMap_cons, Ext.vis]
    rw [push s t (.effected res) ht] at ih
    simp only [h, owed_called, owed_effected] at ih
    omega
  | @ret s l s' t res h r ih =>
    have ih := ih (fun e he => hn e (List.mem_cons_of_mem _ he))
    have ht : t < n := hn _ List.mem_cons_self
    simp only [List.filterMap_cons, Ext.vis, total_cons, contrib]
    rw [push s t .idle ht] at ih
    simp only [h, owed_idle, owed_effected] at ih
    omega

theorem exists_bound (ext : List (Ext Op Res)) : ∃ n, ∀ e ∈ ext, e.thread < n := by
  induction ext with
  | nil => exact ⟨0, by simp⟩
  | cons e l ih =>
    obtain ⟨n, hn⟩ := ih
    refine ⟨n + e.thread + 1, ?_⟩
    intro x hx
    rcases List.mem_cons.1 hx with rfl | hx
    · omega
    · have := hn x hx; omega

/-- Upper bound over a history: used for "handed out at most once". -/
theorem total_nonneg {spec : Spec Op Res Abs} (f : Op → Int) (g : Res → Int) (w : Abs → Int)
    (hspec : ∀ a op r a', spec a op r a' → w a' ≤ w a + f op + g r)
    (hw : ∀ a, 0 ≤ w a) (hf : ∀ op, 0 ≤ f op) (hg : ∀ r, g r ≤ 0)
    {a : Abs} (ha : w a = 0) {h : List (Vis Op Res)} (hl : Linearizable spec a h) : 0 ≤ total f g h := by
  obtain ⟨ext, s, hr, hv⟩ := hl
  obtain ⟨n, hn⟩ := exists_bound ext
  have hb := run_bound f g w hspec hr n hn
  have h0 : isum n (fun t => owed f g ((⟨a, fun _ => .idle⟩ : State Op Res Abs).phase t)) = 0 := isum_zero (fun _ => rfl)
  have h1 : 0 ≤ isum n (fun t => owed f g (s.phase t)) := by
    apply isum_nonneg
    intro t
    cases s.phase t with
    | idle => exact Int.le_refl _
    | called op => exact hf op
    | effected r => have := hg r; show 0 ≤ - g r; omega
  have h2 := hw s.abs
  rw [hv] at hb
  simp only at hb h0
  omega

/-- Exact balance when no operation is in progress: used for "nothing is lost". -/
theorem total_exact {spec : Spec Op Res Abs} (f : Op → Int) (g : Res → Int) (w : Abs → Int)
    (hspec : ∀ a op r a', spec a op r a' → w a' = w a + f op + g r)
    {a : Abs} {s : State Op Res Abs} {ext : List (Ext Op Res)} (hr : Run spec ⟨a, fun _ => .idle⟩ ext s)
    (hid : ∀ t, s.phase t = .idle) : w s.abs = w a + total f g (ext.filterMap Ext.vis) := by
  obtain ⟨n, hn⟩ := exists_bound ext
  have hb := run_bound f g w (fun a op r a' h => by have := hspec a op r a' h; omega) hr n hn
  have hb' := run_bound (fun o => - f o) (fun r => - g r) (fun a => - w a)
    (fun a op r a' h => by have := hspec a op r a' h; omega) hr n hn
  have e1 : ∀ (f : Op → Int) (g : Res → Int), isum n (fun t => owed f g (s.phase t)) = 0 :=
    fun f g => isum_zero (fun t => by rw [hid t]; rfl)
  have e2 : ∀ (f : Op → Int) (g : Res → Int), isum n (fun _ => owed f g (.idle : Phase Op Res)) = 0 :=
    fun f g => isum_zero (fun t => rfl)
  have neg : ∀ l : List (Vis Op Res), total (fun o => - f o) (fun r => - g r) l = - total f g l := by
    intro l
    induction l with
    | nil => rfl
    | cons e l ih =>
      rw [total_cons, total_cons, ih]
      cases e <;> simp only [contrib] <;> omega
  rw [neg] at hb'
  simp only [e1, e2] at hb hb'
  omega

end Verif.Lin
