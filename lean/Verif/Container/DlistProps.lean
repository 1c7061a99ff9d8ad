import Verif.Container.Dlist

/-!
# C162: the intrusive doubly linked list is a list
-/

namespace Verif.Container.Dlist

/-- From `a` over the nodes `l` to `b`, in both directions. -/
def Path (m : M) : Nat → List Nat → Nat → Prop
  | a, [], b => m.next a = b ∧ m.prev b = a
  | a, x :: l, b => m.next a = x ∧ m.prev x = a ∧ Path m x l b

/-- Specification: memory has the lists `L`, whose heads are `H`: each is a cycle with its own nodes and its number of nodes, and other nodes point to themselves. -/
structure Lists (H : Nat → Prop) (m : M) (L : Nat → List Nat) : Prop where
  path : ∀ h, H h → Path m h (L h) h
  size : ∀ h, H h → m.size h = (L h).length
  nodup : ∀ h, H h → (L h).Nodup
  node : ∀ h, H h → ∀ x ∈ L h, ¬ H x
  apart : ∀ h g, H h → H g → h ≠ g → ∀ x ∈ L h, x ∉ L g
  free : ∀ x, ¬ H x → (∀ h, H h → x ∉ L h) → m.next x = x ∧ m.prev x = x

/-! ## Lemmas -/

theorem path_frame {m m' : M} : ∀ {l : List Nat} {a b : Nat}, (∀ u ∈ a :: l, m'.next u = m.next u) → (∀ u ∈ l ++ [b], m'.prev u = m.prev u) → Path m a l b → Path m' a l b := by
  intro l
  induction l with
  | nil => intro a b h1 h2 h; exact ⟨by rw [h1 a (by simp)]; exact h.1, by rw [h2 b (by simp)]; exact h.2⟩
  | cons x l ih =>
    intro a b h1 h2 h
    refine ⟨by rw [h1 a (by simp)]; exact h.1, by rw [h2 x (by simp)]; exact h.2.1, ih (fun u hu => h1 u (List.mem_cons_of_mem _ hu)) (fun u hu => h2 u (by simp at hu ⊢; exact Or.inr hu)) h.2.2⟩

theorem path_append {m : M} {l2 : List Nat} {p b : Nat} : ∀ {l1 : List Nat} {a : Nat}, Path m a (l1 ++ p :: l2) b ↔ Path m a l1 p ∧ Path m p l2 b := by
  intro l1
  induction l1 with
  | nil => intro a; simp [Path, and_assoc]
  | cons x l ih => intro a; simp [Path, ih, and_assoc]

theorem path_head {m : M} {l : List Nat} {a b : Nat} (h : Path m a l b) : m.next a = l.headD b := by
  cases l with
  | nil => exact h.1
  | cons x l => exact h.1

theorem path_last {m : M} {l : List Nat} {a b : Nat} (h : Path m a l b) : m.prev b = l.getLastD a ∧ m.next (l.getLastD a) = b := by
  rcases List.eq_nil_or_concat l with rfl | ⟨l', p, rfl⟩
  · exact ⟨h.2, h.1⟩
  · simp only [List.concat_eq_append, path_append] at h ⊢
    simp only [List.getLastD_eq_getLast?, List.getLast?_append, List.getLast?_singleton, Option.some_or, Option.getD_some]
    exact ⟨h.2.2, h.2.1⟩

theorem unlink_path {m : M} {l1 l2 : List Nat} {a b x : Nat} (h : Path m a (l1 ++ x :: l2) b) (hn : (a :: (l1 ++ x :: l2)).Nodup) (hb : b ∉ l1 ++ x :: l2) : Path (m.unlink x) a (l1 ++ l2) b := by
  have ⟨h1, h2⟩ := path_append.mp h
  have hl := path_last h1
  have hh := path_head h2
  simp only [List.nodup_cons, List.nodup_append, List.mem_append, List.mem_cons, not_or] at hn hb
  have key : ∀ p, m.prev x = p → m.next p = x → p ≠ x → p ∉ l2 → Path (m.unlink x) p l2 b := by
    intro p hp _ hpx hpl
    cases l2 with
    | nil =>
      simp only [List.headD_nil] at hh
      simp only [Path, M.unlink, M.setN, M.setP, upd_apply, hp, hh]
      grind
    | cons y l3 =>
      simp only [List.headD_cons] at hh
      refine ⟨?_, ?_, ?_⟩
      · simp only [M.unlink, M.setN, M.setP, upd_apply, hp, hh]; grind
      · simp only [M.unlink, M.setN, M.setP, upd_apply, hp, hh]; grind
      · refine path_frame (fun u hu => ?_) (fun u hu => ?_) h2.2.2
        · simp only [M.unlink, M.setN, M.setP, upd_apply, hp, hh]; grind
        · simp only [M.unlink, M.setN, M.setP, upd_apply, hp, hh]
          simp only [List.mem_append, List.mem_singleton] at hu
          grind
  rcases List.eq_nil_or_concat l1 with rfl | ⟨l', p, rfl⟩
  · simp only [List.getLastD_nil] at hl
    exact key a hl.1 hl.2 (by grind) (by grind)
  · simp only [List.concat_eq_append] at *
    have hp : (l' ++ [p]).getLastD a = p := by simp [List.getLastD_eq_getLast?]
    rw [hp] at hl
    rw [List.append_assoc, List.singleton_append, path_append]
    refine ⟨?_, key p hl.1 hl.2 (by grind) (by grind)⟩
    have h3 : Path m a l' p := (path_append.mp h1).1
    have hy : m.next x = l2.headD b := hh
    have hy2 : l2.headD b = b ∨ l2.headD b ∈ l2 := by cases l2 <;> simp
    refine path_frame (fun u hu => ?_) (fun u hu => ?_) h3
    · simp only [M.unlink, M.setN, M.setP, upd_apply, hl.1]; grind
    · simp only [M.unlink, M.setN, M.setP, upd_apply, hl.1]
      simp only [List.mem_append, List.mem_singleton] at hu
      grind

/-- The lists of `C` change, all others stay. -/
theorem Lists.update {H C : Nat → Prop} {m m' : M} {L L' : Nat → List Nat} (w : Lists H m L)
    (path : ∀ h, H h → C h → Path m' h (L' h) h) (size : ∀ h, H h → C h → m'.size h = (L' h).length) (nodup : ∀ h, H h → C h → (L' h).Nodup) (node : ∀ h, H h → C h → ∀ x ∈ L' h, ¬ H x)
    (keep : ∀ h, H h → ¬ C h → L' h = L h ∧ m'.size h = m.size h) (apart : ∀ h g, H h → H g → h ≠ g → ∀ x ∈ L' h, x ∉ L' g)
    (frame : ∀ u, ¬ C u → (∀ h, H h → C h → u ∉ L h ∧ u ∉ L' h) → m'.next u = m.next u ∧ m'.prev u = m.prev u)
    (free : ∀ u, ¬ H u → (∀ h, H h → u ∉ L' h) → ∀ h, H h → C h → u ∈ L h → m'.next u = u ∧ m'.prev u = u) (hC : ∀ h, C h → H h) : Lists H m' L' := by
  refine ⟨fun h hh => ?_, fun h hh => ?_, fun h hh => ?_, fun h hh => ?_, apart, fun x hx hl => ?_⟩
  · by_cases hc : C h
    · exact path h hh hc
    · rw [(keep h hh hc).1]
      have hu : ∀ u, u = h ∨ u ∈ L h → m'.next u = m.next u ∧ m'.prev u = m.prev u := by
        rintro u (rfl | hu)
        · refine frame u hc fun g hg hcg => ⟨fun hm => w.node g hg _ hm hh, fun hm => node g hg hcg _ hm hh⟩
        · refine frame u (fun hcu => w.node h hh u hu (hC u hcu)) fun g hg hcg => ?_
          have hne : h ≠ g := fun e => hc (e ▸ hcg)
          refine ⟨w.apart h g hh hg hne u hu, fun hm => apart g h hg hh hne.symm u hm ?_⟩
          rw [(keep h hh hc).1]; exact hu
      exact path_frame (fun u hm => (hu u (List.mem_cons.mp hm)).1) (fun u hm => (hu u (by simp at hm; exact hm.symm)).2) (w.path h hh)
  · by_cases hc : C h
    · exact size h hh hc
    · rw [(keep h hh hc).1, (keep h hh hc).2]; exact w.size h hh
  · by_cases hc : C h
    · exact nodup h hh hc
    · rw [(keep h hh hc).1]; exact w.nodup h hh
  · by_cases hc : C h
    · exact node h hh hc
    · rw [(keep h hh hc).1]; exact w.node h hh
  · by_cases he : ∃ h, H h ∧ C h ∧ x ∈ L h
    · obtain ⟨h, hh, hc, hm⟩ := he
      exact free x hx hl h hh hc hm
    · have hf := frame x (fun hc => hx (hC x hc)) fun h hh hc => ⟨fun hm => he ⟨h, hh, hc, hm⟩, hl h hh⟩
      rw [hf.1, hf.2]
      refine w.free x hx fun h hh hm => ?_
      by_cases hc : C h
      · exact he ⟨h, hh, hc, hm⟩
      · exact hl h hh (by rw [(keep h hh hc).1]; exact hm)

/-- One list changes. -/
theorem Lists.update1 {H : Nat → Prop} {m m' : M} {L : Nat → List Nat} {h : Nat} {l : List Nat} (w : Lists H m L) (hh : H h)
    (path : Path m' h l h) (size : m'.size = upd m.size h l.length) (nodup : l.Nodup) (node : ∀ x ∈ l, ¬ H x) (apart : ∀ g, H g → h ≠ g → ∀ x ∈ l, x ∉ L g)
    (frame : ∀ u, u ≠ h → u ∉ L h → u ∉ l → m'.next u = m.next u ∧ m'.prev u = m.prev u) (free : ∀ u ∈ L h, u ∉ l → m'.next u = u ∧ m'.prev u = u) : Lists H m' (upd L h l) := by
  refine w.update (C := (· = h)) ?_ ?_ ?_ ?_ ?_ ?_ ?_ ?_ ?_
  · rintro _ _ rfl; simpa using path
  · rintro _ _ rfl; rw [size]; simp
  · rintro _ _ rfl; simpa using nodup
  · rintro _ _ rfl; simpa using node
  · intro g _ hg; rw [upd_ne _ _ hg, size, upd_ne _ _ hg]; exact ⟨rfl, rfl⟩
  · intro a b ha hb hne x hx
    by_cases e1 : a = h
    · subst e1
      rw [upd_same] at hx
      rw [upd_ne _ _ hne.symm]
      exact apart b hb hne x hx
    · rw [upd_ne _ _ e1] at hx
      by_cases e2 : b = h
      · subst e2
        rw [upd_same]
        exact fun hm => apart a ha hne.symm x hm hx
      · rw [upd_ne _ _ e2]
        exact w.apart a b ha hb hne x hx
  · intro u hu hall
    have := hall h hh rfl
    rw [upd_same] at this
    exact frame u hu this.1 this.2
  · rintro u hu hall _ hg rfl hm
    have := hall _ hg
    rw [upd_same] at this
    exact free u hm this
  · rintro _ rfl; exact hh

theorem Lists.head {H : Nat → Prop} {m : M} {L : Nat → List Nat} (w : Lists H m L) {h : Nat} (hh : H h) : h ∉ L h := fun hm => w.node h hh h hm hh

theorem Lists.next {H : Nat → Prop} {m : M} {L : Nat → List Nat} (w : Lists H m L) {h : Nat} (hh : H h) : m.next h = (L h).headD h := path_head (w.path h hh)
theorem Lists.prev {H : Nat → Prop} {m : M} {L : Nat → List Nat} (w : Lists H m L) {h : Nat} (hh : H h) : m.prev h = (L h).getLastD h := (path_last (w.path h hh)).1

theorem Lists.self {H : Nat → Prop} {m : M} {L : Nat → List Nat} (w : Lists H m L) {h : Nat} (hh : H h) : m.prev h = h ↔ L h = [] := by
  rw [w.prev hh]
  constructor
  · intro e
    rcases List.eq_nil_or_concat (L h) with h0 | ⟨l', p, h0⟩
    · exact h0
    · exfalso
      rw [h0] at e
      simp [List.getLastD_eq_getLast?] at e
      subst e
      exact w.head hh (by rw [h0]; simp)
  · intro e; rw [e]; rfl

/-- Unlinking a node of a list. -/
theorem Lists.unlink {H : Nat → Prop} {m : M} {L : Nat → List Nat} (w : Lists H m L) {h x : Nat} (hh : H h) {l1 l2 : List Nat} (hx : L h = l1 ++ x :: l2) :
    Lists H ((m.unlink x).setS h (m.size h - 1)) (upd L h (l1 ++ l2)) := by
  have hn := w.nodup h hh
  have hd := w.head hh
  have hp := w.path h hh
  have hsz := w.size h hh
  rw [hx] at hn hd hp hsz
  have ⟨h1, h2⟩ := path_append.mp hp
  have hl := path_last h1
  have hhd := path_head h2
  have hpm : m.prev x = h ∨ m.prev x ∈ l1 := by
    rw [hl.1]
    rcases List.eq_nil_or_concat l1 with rfl | ⟨l', p, rfl⟩
    · exact .inl rfl
    · right; simp [List.getLastD_eq_getLast?]
  have hnm : m.next x = h ∨ m.next x ∈ l2 := by
    rw [hhd]; cases l2 <;> simp
  refine w.update1 hh ?_ ?_ ?_ ?_ ?_ ?_ ?_
  · exact path_frame (m := m.unlink x) (fun _ _ => rfl) (fun _ _ => rfl) (unlink_path hp (List.nodup_cons.mpr ⟨hd, hn⟩) hd)
  · simp only [M.setS, M.unlink, M.setN, M.setP]
    congr 1
    rw [hsz]; simp
  · simp only [List.nodup_append, List.nodup_cons, List.mem_cons] at hn ⊢
    grind
  · intro y hy
    exact w.node h hh y (by rw [hx]; simp at hy ⊢; grind)
  · intro g hg hne y hy
    exact w.apart h g hh hg hne y (by rw [hx]; simp at hy ⊢; grind)
  · intro u hu1 hu2 hu3
    rw [hx] at hu2
    simp only [List.mem_append, List.mem_cons, not_or] at hu2
    simp only [M.setS, M.unlink, M.setN, M.setP, upd_apply]
    grind
  · intro u hu1 hu2
    rw [hx] at hu1
    simp only [List.mem_append, List.mem_cons] at hu1 hu2
    have : u = x := by grind
    subst this
    simp [M.setS, M.unlink, M.setN, M.setP]

/-! ## Properties -/

/-- **C162.** In the beginning all lists are empty. -/
theorem C162_init (H : Nat → Prop) : Lists H .init (fun _ => []) :=
  ⟨fun _ _ => ⟨rfl, rfl⟩, fun _ _ => rfl, fun _ _ => List.nodup_nil, fun _ _ _ h => (by cases h), fun _ _ _ _ _ _ h => (by cases h), fun _ _ _ => ⟨rfl, rfl⟩⟩

/-- **C162.** A node is in a list exactly if it does not point to itself; this is what the checks test. -/
theorem C162_linked {H : Nat → Prop} {m : M} {L : Nat → List Nat} (w : Lists H m L) {x : Nat} (hx : ¬ H x) : m.prev x = x ↔ ∀ h, H h → x ∉ L h := by
  constructor
  · intro e h hh hm
    obtain ⟨l1, l2, hs⟩ := List.append_of_mem hm
    have hp := w.path h hh
    have hn := w.nodup h hh
    rw [hs] at hp hn
    have hl := (path_last (path_append.mp hp).1).1
    rw [e] at hl
    rcases List.eq_nil_or_concat l1 with rfl | ⟨l', p, rfl⟩
    · simp at hl; subst hl; exact hx hh
    · simp [List.getLastD_eq_getLast?] at hl
      subst hl
      simp [List.nodup_append] at hn
  · intro h; exact (w.free x hx h).2

/-- **C162.** `push_front` -/
theorem C162_pushFront {H : Nat → Prop} {m : M} {L : Nat → List Nat} (w : Lists H m L) {h x : Nat} (hh : H h) (hx : ¬ H x) (hf : ∀ g, H g → x ∉ L g) :
    Lists H (m.pushFront h x) (upd L h (x :: L h)) := by
  have hd := w.head hh
  have hxh : x ≠ h := fun e => hx (e ▸ hh)
  have hp := w.path h hh
  have hn := w.nodup h hh
  have hfx := hf h hh
  have hhd := w.next hh
  have hhm : m.next h = h ∨ m.next h ∈ L h := by rw [hhd]; cases L h <;> simp
  have hnx : m.next h ≠ x := by rintro rfl; grind
  refine w.update1 hh ?_ ?_ (List.nodup_cons.mpr ⟨hfx, hn⟩) ?_ ?_ ?_ ?_
  · generalize hL : L h = l at *
    cases l with
    | nil =>
      simp only [List.headD_nil] at hhd
      simp only [Path, M.pushFront, M.setN, M.setP, M.setS, upd_apply, hhd]
      grind
    | cons y l =>
      simp only [List.headD_cons] at hhd
      simp only [List.mem_cons, not_or, List.nodup_cons] at hd hfx hn
      refine ⟨?_, ?_, ?_, ?_, path_frame (fun u hu => ?_) (fun u hu => ?_) hp.2.2⟩
      · simp only [M.pushFront, M.setN, M.setP, M.setS, upd_apply, hhd]; grind
      · simp only [M.pushFront, M.setN, M.setP, M.setS, upd_apply, hhd]; grind
      · simp only [M.pushFront, M.setN, M.setP, M.setS, upd_apply, hhd]; grind
      · simp only [M.pushFront, M.setN, M.setP, M.setS, upd_apply, hhd]; grind
      · simp only [M.pushFront, M.setN, M.setP, M.setS, upd_apply, hhd]; grind
      · simp only [List.mem_append, List.mem_singleton] at hu
        simp only [M.pushFront, M.setN, M.setP, M.setS, upd_apply, hhd]; grind
  · simp only [M.pushFront, M.setN, M.setP, M.setS, List.length_cons, w.size h hh]
  · intro y hy
    rcases List.mem_cons.mp hy with rfl | hy
    · exact hx
    · exact w.node h hh y hy
  · intro g hg hne y hy
    rcases List.mem_cons.mp hy with rfl | hy
    · exact hf g hg
    · exact w.apart h g hh hg hne y hy
  · intro u h1 h2 h3
    simp only [List.mem_cons, not_or] at h3
    simp only [M.pushFront, M.setN, M.setP, M.setS, upd_apply]
    grind
  · intro u h1 h2; exact absurd (List.mem_cons_of_mem _ h1) h2

/-- **C162.** `push_back` -/
theorem C162_pushBack {H : Nat → Prop} {m : M} {L : Nat → List Nat} (w : Lists H m L) {h x : Nat} (hh : H h) (hx : ¬ H x) (hf : ∀ g, H g → x ∉ L g) :
    Lists H (m.pushBack h x) (upd L h (L h ++ [x])) := by
  have hd := w.head hh
  have hxh : x ≠ h := fun e => hx (e ▸ hh)
  have hp := w.path h hh
  have hn := w.nodup h hh
  have hfx := hf h hh
  have hhd := w.prev hh
  have hhm : m.prev h = h ∨ m.prev h ∈ L h := by
    rw [hhd]
    rcases List.eq_nil_or_concat (L h) with h0 | ⟨l', p, h0⟩
    · rw [h0]; simp
    · rw [h0]; simp [List.getLastD_eq_getLast?]
  have hnx : m.prev h ≠ x := by rintro rfl; grind
  refine w.update1 hh ?_ ?_ ?_ ?_ ?_ ?_ ?_
  · generalize hL : L h = l at *
    rcases List.eq_nil_or_concat l with rfl | ⟨l', p, rfl⟩
    · simp only [List.getLastD_nil] at hhd
      simp only [List.nil_append, Path, M.pushBack, M.setN, M.setP, M.setS, upd_apply, hhd]
      grind
    · simp only [List.concat_eq_append] at *
      have hlp : (l' ++ [p]).getLastD h = p := by simp [List.getLastD_eq_getLast?]
      rw [hlp] at hhd
      simp only [List.mem_append, List.mem_singleton, not_or, List.nodup_append] at hd hfx hn
      rw [List.append_assoc, List.singleton_append, path_append]
      refine ⟨path_frame (fun u hu => ?_) (fun u hu => ?_) (path_append.mp hp).1, ?_⟩
      · simp only [M.pushBack, M.setN, M.setP, M.setS, upd_apply, hhd]; grind
      · simp only [List.mem_append, List.mem_singleton] at hu
        simp only [M.pushBack, M.setN, M.setP, M.setS, upd_apply, hhd]; grind
      · simp only [Path, M.pushBack, M.setN, M.setP, M.setS, upd_apply, hhd]; grind
  · simp only [M.pushBack, M.setN, M.setP, M.setS, List.length_append, List.length_singleton, w.size h hh]
  · rw [List.nodup_append]
    exact ⟨hn, by simp, by intro a ha b hb; simp at hb; subst hb; exact fun e => hfx (e ▸ ha)⟩
  · intro y hy
    rcases List.mem_append.mp hy with hy | hy
    · exact w.node h hh y hy
    · rw [List.mem_singleton.mp hy]; exact hx
  · intro g hg hne y hy
    rcases List.mem_append.mp hy with hy | hy
    · exact w.apart h g hh hg hne y hy
    · rw [List.mem_singleton.mp hy]; exact hf g hg
  · intro u h1 h2 h3
    simp only [List.mem_append, List.mem_singleton, not_or] at h3
    simp only [M.pushBack, M.setN, M.setP, M.setS, upd_apply]
    grind
  · intro u h1 h2; exact absurd (List.mem_append_left _ h1) h2

/-- **C162.** `pop_front` returns the first entry, or nothing. -/
theorem C162_popFront {H : Nat → Prop} {m : M} {L : Nat → List Nat} (w : Lists H m L) {h : Nat} (hh : H h) :
    (m.popFront h).2 = (L h).head? ∧ Lists H (m.popFront h).1 (upd L h (L h).tail) := by
  unfold M.popFront
  split
  · rename_i e
    have e := (w.self hh).mp e
    refine ⟨by rw [e]; rfl, ?_⟩
    have : upd L h (L h).tail = L := by
      funext g
      by_cases hg : g = h
      · subst hg; simp [e]
      · rw [upd_ne _ _ hg]
    rw [this]; exact w
  · rename_i e
    have hne : L h ≠ [] := fun h0 => e ((w.self hh).mpr h0)
    obtain ⟨x, l, hl⟩ := List.exists_cons_of_ne_nil hne
    have hx : m.next h = x := by rw [w.next hh, hl]; rfl
    refine ⟨by rw [hl, hx]; rfl, ?_⟩
    rw [hx, hl]
    exact w.unlink hh (l1 := []) hl

/-- **C162.** `pop_back` returns the last entry, or nothing. -/
theorem C162_popBack {H : Nat → Prop} {m : M} {L : Nat → List Nat} (w : Lists H m L) {h : Nat} (hh : H h) :
    (m.popBack h).2 = (L h).getLast? ∧ Lists H (m.popBack h).1 (upd L h (L h).dropLast) := by
  unfold M.popBack
  split
  · rename_i e
    have e := (w.self hh).mp e
    refine ⟨by rw [e]; rfl, ?_⟩
    have : upd L h (L h).dropLast = L := by
      funext g
      by_cases hg : g = h
      · subst hg; simp [e]
      · rw [upd_ne _ _ hg]
    rw [this]; exact w
  · rename_i e
    have hne : L h ≠ [] := fun h0 => e ((w.self hh).mpr h0)
    rcases List.eq_nil_or_concat (L h) with h0 | ⟨l', p, h0⟩
    · exact absurd h0 hne
    · rw [List.concat_eq_append] at h0
      have hx : m.prev h = p := by rw [w.prev hh, h0]; simp [List.getLastD_eq_getLast?]
      refine ⟨by rw [h0, hx]; simp, ?_⟩
      rw [hx]
      have := w.unlink hh (l1 := l') (l2 := []) h0
      rw [h0]
      simpa using this

/-- **C162.** `erase` of an entry of the list removes it; of one in no list, it does nothing; the result tells which. -/
theorem C162_erase {H : Nat → Prop} {m : M} {L : Nat → List Nat} (w : Lists H m L) {h x : Nat} (hh : H h) (hx : ¬ H x) (hg : ∀ g, H g → g ≠ h → x ∉ L g) :
    (m.erase h x).2 = decide (x ∈ L h) ∧ Lists H (m.erase h x).1 (upd L h ((L h).erase x)) := by
  unfold M.erase
  split
  · rename_i e
    have e := (C162_linked w hx).mp e h hh
    refine ⟨by simp [e], ?_⟩
    have : upd L h ((L h).erase x) = L := by
      funext g
      by_cases hg : g = h
      · subst hg; simp [List.erase_of_not_mem e]
      · rw [upd_ne _ _ hg]
    rw [this]; exact w
  · rename_i e
    have hm : x ∈ L h := by
      refine Classical.byContradiction fun hno => e ((C162_linked w hx).mpr fun g hg' => ?_)
      by_cases he : g = h
      · rw [he]; exact hno
      · exact hg g hg' he
    obtain ⟨l1, l2, hs⟩ := List.append_of_mem hm
    refine ⟨by simp [hm], ?_⟩
    have hn := w.nodup h hh
    have : (L h).erase x = l1 ++ l2 := by
      rw [hs] at hn ⊢
      have hx1 : x ∉ l1 := by
        simp only [List.nodup_append, List.mem_cons] at hn
        exact fun hm => hn.2.2 x hm x (.inl rfl) rfl
      rw [List.erase_append_right _ hx1]
      simp
    rw [this]
    exact w.unlink hh hs

/-- **C162.** `splice` moves all entries of another list to the end. -/
theorem C162_splice {H : Nat → Prop} {m : M} {L : Nat → List Nat} (w : Lists H m L) {h g : Nat} (hh : H h) (hg : H g) (hne : h ≠ g) :
    Lists H (m.splice h g) (upd (upd L h (L h ++ L g)) g []) := by
  have hsz := w.size g hg
  unfold M.splice
  split
  · rename_i e
    have e : L g = [] := List.eq_nil_of_length_eq_zero (by omega)
    have : upd (upd L h (L h ++ L g)) g [] = L := by
      funext a
      simp only [upd_apply]
      split
      · rename_i ha; rw [ha, e]
      · split
        · rename_i ha; rw [ha, e, List.append_nil]
        · rfl
    rw [this]; exact w
  · rename_i e
    have hne2 : L g ≠ [] := fun h0 => e (by rw [hsz, h0]; rfl)
    have hgh : g ≠ h := hne.symm
    have dh := w.head hh
    have dg := w.head hg
    have dhg : h ∉ L g := fun hm => w.node g hg h hm hh
    have dgh : g ∉ L h := fun hm => w.node h hh g hm hg
    have nh := w.nodup h hh
    have ng := w.nodup g hg
    have ap := w.apart h g hh hg hne
    have ph := w.path h hh
    have pg := w.path g hg
    have hq := w.prev hh
    have hsh := w.size h hh
    have hqm : m.prev h = h ∨ m.prev h ∈ L h := by
      rw [hq]
      rcases List.eq_nil_or_concat (L h) with h0 | ⟨l', p, h0⟩
      · rw [h0]; simp
      · rw [h0]; simp [List.getLastD_eq_getLast?]
    have hf := w.next hg
    have hb := w.prev hg
    have hfm : m.next g ∈ L g := by
      rw [hf]
      obtain ⟨x, l, hl⟩ := List.exists_cons_of_ne_nil hne2
      rw [hl]; simp
    have hbm : m.prev g ∈ L g := by
      rw [hb]
      rcases List.eq_nil_or_concat (L g) with h0 | ⟨l', p, h0⟩
      · exact absurd h0 hne2
      · rw [h0]; simp [List.getLastD_eq_getLast?]
    have nfh : m.next g ≠ h := fun e => dhg (e ▸ hfm)
    have nfg : m.next g ≠ g := by intro e; rw [e] at hfm; exact dg hfm
    have nbh : m.prev g ≠ h := fun e => dhg (e ▸ hbm)
    have nbg : m.prev g ≠ g := by intro e; rw [e] at hbm; exact dg hbm
    have nqg : m.prev h ≠ g := by
      rcases hqm with h0 | h0
      · rw [h0]; exact hne
      · exact fun e => dgh (e ▸ h0)
    have nqb : m.prev h ≠ m.prev g := by
      rcases hqm with h0 | h0
      · rw [h0]; exact fun e => nbh e.symm
      · exact fun e => ap _ h0 (e ▸ hbm)
    -- the memory afterwards
    let m' : M := ⟨upd (upd (upd m.next (m.prev h) (m.next g)) (m.prev g) h) g g, upd (upd (upd m.prev (m.next g) (m.prev h)) h (m.prev g)) g g, upd (upd m.size h (m.size h + m.size g)) g 0⟩
    have hm' : (let m1 := m.setP (m.next g) (m.prev h)
      let m2 := m1.setN (m1.prev h) (m1.next g)
      let m3 := m2.setN (m2.prev g) h
      let m4 := m3.setP h (m3.prev g)
      let m5 := m4.setS h (m4.size h + m4.size g)
      let m6 := m5.setS g 0
      (m6.setN g g).setP g g) = m' := by
      simp only [m', M.setP, M.setN, M.setS, upd_ne _ _ nfh.symm, upd_ne _ _ nfg.symm]
    show Lists H (let m1 := m.setP (m.next g) (m.prev h)
      let m2 := m1.setN (m1.prev h) (m1.next g)
      let m3 := m2.setN (m2.prev g) h
      let m4 := m3.setP h (m3.prev g)
      let m5 := m4.setS h (m4.size h + m4.size g)
      let m6 := m5.setS g 0
      (m6.setN g g).setP g g) _
    rw [hm']
    have hpath : Path m' h (L h ++ L g) h := by
      obtain ⟨f, k, hk⟩ := List.exists_cons_of_ne_nil hne2
      have hff : m.next g = f := by rw [hf, hk]; rfl
      -- the other list, from its first entry to the head of this one
      have p2 : Path m' f k h := by
        rw [hk] at pg ng dg dhg
        have pk : Path m f k g := pg.2.2
        have hl := path_last pk
        simp only [List.nodup_cons, List.mem_cons, not_or] at ng dg dhg
        rcases List.eq_nil_or_concat k with h0 | ⟨k', b, h0⟩
        · subst h0
          simp only [List.getLastD_nil] at hl
          simp only [Path, m', upd_apply, hl.1]
          grind
        · rw [List.concat_eq_append] at h0
          subst h0
          have hlb : (k' ++ [b]).getLastD f = b := by simp [List.getLastD_eq_getLast?]
          rw [hlb] at hl
          simp only [List.mem_append, List.mem_singleton, not_or, List.nodup_append] at ng dg dhg
          rw [path_append] at pk ⊢
          refine ⟨path_frame (fun u hu => ?_) (fun u hu => ?_) pk.1, ?_⟩
          · have : u ≠ m.prev h := by
              rcases hqm with h0 | h0
              · rw [h0]; grind
              · exact fun e => ap _ h0 (by rw [hk, ← e]; grind)
            simp only [m', upd_apply, hl.1]
            grind
          · simp only [List.mem_append, List.mem_singleton] at hu
            simp only [m', upd_apply, hff]
            grind
          · simp only [Path, m', upd_apply, hl.1]
            grind
      rw [hk]
      have hj : m'.next (m.prev h) = f ∧ m'.prev f = m.prev h := by
        simp only [m', upd_apply, hff]
        grind
      rcases List.eq_nil_or_concat (L h) with h0 | ⟨l', p, h0⟩
      · rw [h0] at hq ⊢
        simp only [List.getLastD_nil] at hq
        rw [hq] at hj
        exact ⟨hj.1, hj.2, p2⟩
      · rw [List.concat_eq_append] at h0
        have hlp : (l' ++ [p]).getLastD h = p := by simp [List.getLastD_eq_getLast?]
        rw [h0, hlp] at hq
        rw [hq] at hj
        have php := ph
        rw [h0] at php
        have p1 := (path_append.mp php).1
        rw [h0] at ap dh nh dgh
        simp only [List.mem_append, List.mem_singleton, not_or, List.nodup_append] at ap dh nh dgh
        rw [h0, List.append_assoc, List.singleton_append, path_append]
        refine ⟨path_frame (fun u hu => ?_) (fun u hu => ?_) p1, hj.1, hj.2, p2⟩
        · have : u ≠ m.prev g := by
            rcases List.mem_cons.mp hu with rfl | hu
            · exact nbh.symm
            · exact fun e => ap u (.inl hu) (e ▸ hbm)
          simp only [m', upd_apply, hq]
          grind
        · simp only [List.mem_append, List.mem_singleton] at hu
          have : u ≠ m.next g := fun e => ap u hu (e ▸ hfm)
          simp only [m', upd_apply, hq]
          grind
    have hLh : upd (upd L h (L h ++ L g)) g [] h = L h ++ L g := by rw [upd_ne _ _ hne, upd_same]
    have hLg : upd (upd L h (L h ++ L g)) g [] g = [] := upd_same _ _ _
    have hLo : ∀ a, a ≠ h → a ≠ g → upd (upd L h (L h ++ L g)) g [] a = L a := fun a h1 h2 => by rw [upd_ne _ _ h2, upd_ne _ _ h1]
    refine w.update (C := fun a => a = h ∨ a = g) ?_ ?_ ?_ ?_ ?_ ?_ ?_ ?_ ?_
    · rintro a _ (rfl | rfl)
      · rw [hLh]; exact hpath
      · rw [hLg]; simp [Path, m']
    · rintro a _ (rfl | rfl)
      · rw [hLh, List.length_append, ← hsh, ← hsz]; simp [m', upd_apply, hne]
      · rw [hLg]; simp [m']
    · rintro a _ (rfl | rfl)
      · rw [hLh, List.nodup_append]
        exact ⟨nh, ng, fun x hx y hy e => ap x hx (e ▸ hy)⟩
      · rw [hLg]; simp
    · rintro a _ (rfl | rfl) x hx
      · rw [hLh] at hx
        rcases List.mem_append.mp hx with hx | hx
        · exact w.node _ hh x hx
        · exact w.node _ hg x hx
      · rw [hLg] at hx; cases hx
    · intro a _ ha
      simp only [not_or] at ha
      exact ⟨hLo a ha.1 ha.2, by simp only [m']; rw [upd_ne _ _ ha.2, upd_ne _ _ ha.1]⟩
    · intro a b ha hb hab x hx hx2
      by_cases a1 : a = g
      · rw [a1, hLg] at hx; cases hx
      by_cases b1 : b = g
      · rw [b1, hLg] at hx2; cases hx2
      by_cases a2 : a = h
      · have b2 : b ≠ h := fun e => hab (a2.trans e.symm)
        rw [a2, hLh] at hx
        rw [hLo b b2 b1] at hx2
        rcases List.mem_append.mp hx with hx | hx
        · exact w.apart h b hh hb b2.symm x hx hx2
        · exact w.apart g b hg hb (Ne.symm b1) x hx hx2
      · rw [hLo a a2 a1] at hx
        by_cases b2 : b = h
        · rw [b2, hLh] at hx2
          rcases List.mem_append.mp hx2 with hx2 | hx2
          · exact w.apart a h ha hh a2 x hx hx2
          · exact w.apart a g ha hg a1 x hx hx2
        · rw [hLo b b2 b1] at hx2
          exact w.apart a b ha hb hab x hx hx2
    · intro u hu hall
      simp only [not_or] at hu
      have q1 := (hall h hh (.inl rfl)).1
      have q2 := (hall g hg (.inr rfl)).1
      have a1 : u ≠ m.prev h := by
        rcases hqm with h0 | h0
        · rw [h0]; exact hu.1
        · exact fun e => q1 (e ▸ h0)
      have a2 : u ≠ m.prev g := fun e => q2 (e ▸ hbm)
      have a3 : u ≠ m.next g := fun e => q2 (e ▸ hfm)
      simp [m', upd_apply, hu.1, hu.2, a1, a2, a3]
    · rintro u _ hall a _ (rfl | rfl) hm
      · exact absurd (by rw [hLh]; exact List.mem_append_left _ hm) (hall _ hh)
      · exact absurd (by rw [hLh]; exact List.mem_append_right _ hm) (hall _ hh)
    · rintro a (rfl | rfl)
      · exact hh
      · exact hg

theorem path_end {m m' : M} {b b' : Nat} : ∀ {k : List Nat} {x : Nat}, Path m x k b → (x :: k).Nodup → (∀ u ∈ x :: k, u ≠ k.getLastD x → m'.next u = m.next u) → (∀ u ∈ k, m'.prev u = m.prev u) →
    m'.next (k.getLastD x) = b' → m'.prev b' = k.getLastD x → Path m' x k b' := by
  intro k
  induction k with
  | nil => intro x _ _ _ _ h1 h2; exact ⟨h1, h2⟩
  | cons y k ih =>
    intro x hp hn h1 h2 h3 h4
    have hl : (y :: k).getLastD x = k.getLastD y := by cases k <;> simp [List.getLastD]
    rw [hl] at h1 h3 h4
    have hm : k.getLastD y ∈ y :: k := by
      rcases List.eq_nil_or_concat k with rfl | ⟨k', p, rfl⟩
      · simp
      · simp [List.getLastD_eq_getLast?]
    have hx : x ≠ k.getLastD y := fun e => (List.nodup_cons.mp hn).1 (by rw [e]; exact hm)
    refine ⟨by rw [h1 x (by simp) hx]; exact hp.1, by rw [h2 y (by simp)]; exact hp.2.1, ?_⟩
    exact ih hp.2.2 (List.nodup_cons.mp hn).2 (fun u hu hne => h1 u (List.mem_cons_of_mem _ hu) hne) (fun u hu => h2 u (List.mem_cons_of_mem _ hu)) h3 h4

/-- A list with another head. -/
theorem path_rehead {m m' : M} {l : List Nat} {g h : Nat} (hp : Path m g l g) (hn : l.Nodup) (hl : l ≠ []) (h1 : m'.next h = m.next g) (h2 : m'.prev h = m.prev g) (h3 : m'.next (m.prev g) = h) (h4 : m'.prev (m.next g) = h)
    (h5 : ∀ u ∈ l, u ≠ m.prev g → m'.next u = m.next u) (h6 : ∀ u ∈ l, u ≠ m.next g → m'.prev u = m.prev u) : Path m' h l h := by
  have hq := (path_last hp).1
  cases l with
  | nil => exact absurd rfl hl
  | cons x k =>
    have hx := hp.1
    have hlast : (x :: k).getLastD g = k.getLastD x := by cases k <;> simp [List.getLastD]
    rw [hlast] at hq
    rw [hx] at h1 h4 h6
    rw [hq] at h2 h3 h5
    have hnd := List.nodup_cons.mp hn
    exact ⟨h1, h4, path_end hp.2.2 hn h5 (fun u hu => h6 u (List.mem_cons_of_mem _ hu) (fun e => hnd.1 (e ▸ hu))) h3 h2⟩

theorem Lists.ends {H : Nat → Prop} {m : M} {L : Nat → List Nat} (w : Lists H m L) {h : Nat} (hh : H h) (hl : L h ≠ []) : m.next h ∈ L h ∧ m.prev h ∈ L h := by
  rw [w.next hh, w.prev hh]
  constructor
  · obtain ⟨x, l, e⟩ := List.exists_cons_of_ne_nil hl
    rw [e]; simp
  · rcases List.eq_nil_or_concat (L h) with h0 | ⟨l', p, h0⟩
    · exact absurd h0 hl
    · rw [h0]; simp [List.getLastD_eq_getLast?]

/-- What `swap` makes of memory. -/
theorem swap_mem {H : Nat → Prop} {m : M} {L : Nat → List Nat} (w : Lists H m L) {h g : Nat} (hh : H h) (hg : H g) (hne : h ≠ g) :
    (∀ u, (m.swap h g).next u = if u = h then (if L g = [] then h else m.next g) else if u = g then (if L h = [] then g else m.next h) else
      if L g ≠ [] ∧ u = m.prev g then h else if L h ≠ [] ∧ u = m.prev h then g else m.next u) ∧
    (∀ u, (m.swap h g).prev u = if u = h then (if L g = [] then h else m.prev g) else if u = g then (if L h = [] then g else m.prev h) else
      if L g ≠ [] ∧ u = m.next g then h else if L h ≠ [] ∧ u = m.next h then g else m.prev u) ∧
    (m.swap h g).size = upd (upd m.size h (m.size g)) g (m.size h) := by
  have e1 : (m.size h == 0) = decide (L h = []) := by rw [w.size h hh]; cases L h <;> simp
  have e2 : (m.size g == 0) = decide (L g = []) := by rw [w.size g hg]; cases L g <;> simp
  have dh := w.head hh
  have dg := w.head hg
  have dhg : h ∉ L g := fun hm => w.node g hg h hm hh
  have dgh : g ∉ L h := fun hm => w.node h hh g hm hg
  have ap := w.apart h g hh hg hne
  have en1 := w.ends hh
  have en2 := w.ends hg
  unfold M.swap M.rehead
  rw [e1, e2]
  by_cases c1 : L h = [] <;> by_cases c2 : L g = []
  · simp only [c1, c2, decide_true, Bool.not_true, if_true, M.setN, M.setP, upd_apply]
    refine ⟨fun u => ?_, fun u => ?_, ?_⟩
    · grind [upd]
    · grind [upd]
    · simp
  · have en2 := en2 c2
    simp only [c1, c2, decide_true, decide_false, Bool.not_true, Bool.not_false, if_true, M.setN, M.setP, upd_apply]
    refine ⟨fun u => ?_, fun u => ?_, ?_⟩
    · grind [upd]
    · grind [upd]
    · simp
  · have en1 := en1 c1
    simp only [c1, c2, decide_true, decide_false, Bool.not_true, Bool.not_false, if_true, M.setN, M.setP, upd_apply]
    refine ⟨fun u => ?_, fun u => ?_, ?_⟩
    · grind [upd]
    · grind [upd]
    · simp
  · have en1 := en1 c1
    have en2 := en2 c2
    have q1 := ap _ en1.1
    have q2 := ap _ en1.2
    simp only [c1, c2, decide_false, Bool.not_false, if_true, M.setN, M.setP, upd_apply]
    refine ⟨fun u => ?_, fun u => ?_, ?_⟩
    · grind [upd]
    · grind [upd]
    · simp

/-- **C162.** `swap` exchanges the entries of two lists. -/
theorem C162_swap {H : Nat → Prop} {m : M} {L : Nat → List Nat} (w : Lists H m L) {h g : Nat} (hh : H h) (hg : H g) (hne : h ≠ g) :
    Lists H (m.swap h g) (upd (upd L h (L g)) g (L h)) := by
  obtain ⟨sn, sp, ss⟩ := swap_mem w hh hg hne
  have dh := w.head hh
  have dg := w.head hg
  have dhg : h ∉ L g := fun hm => w.node g hg h hm hh
  have dgh : g ∉ L h := fun hm => w.node h hh g hm hg
  have ap := w.apart h g hh hg hne
  have en1 := w.ends hh
  have en2 := w.ends hg
  have hLh : upd (upd L h (L g)) g (L h) h = L g := by rw [upd_ne _ _ hne, upd_same]
  have hLg : upd (upd L h (L g)) g (L h) g = L h := upd_same _ _ _
  have hLo : ∀ a, a ≠ h → a ≠ g → upd (upd L h (L g)) g (L h) a = L a := fun a h1 h2 => by rw [upd_ne _ _ h2, upd_ne _ _ h1]
  refine w.update (C := fun a => a = h ∨ a = g) ?_ ?_ ?_ ?_ ?_ ?_ ?_ ?_ ?_
  · rintro a _ (rfl | rfl)
    · rw [hLh]
      by_cases c : L g = []
      · rw [c]; exact ⟨by rw [sn]; simp [c], by rw [sp]; simp [c]⟩
      · have en2 := en2 c
        refine path_rehead (w.path g hg) (w.nodup g hg) c ?_ ?_ ?_ ?_ (fun u hu hx => ?_) (fun u hu hx => ?_)
        · rw [sn]; simp [c]
        · rw [sp]; simp [c]
        · rw [sn]; grind
        · rw [sp]; grind
        · rw [sn]; grind
        · rw [sp]; grind
    · rw [hLg]
      by_cases c : L h = []
      · rw [c]; exact ⟨by rw [sn]; simp [c, hne.symm], by rw [sp]; simp [c, hne.symm]⟩
      · have en1 := en1 c
        refine path_rehead (w.path h hh) (w.nodup h hh) c ?_ ?_ ?_ ?_ (fun u hu hx => ?_) (fun u hu hx => ?_)
        · rw [sn]; simp [c, hne.symm]
        · rw [sp]; simp [c, hne.symm]
        · rw [sn]; grind
        · rw [sp]; grind
        · rw [sn]; grind
        · rw [sp]; grind
  · rintro a _ (rfl | rfl)
    · rw [hLh, ss, upd_ne _ _ hne, upd_same]; exact w.size g hg
    · rw [hLg, ss, upd_same]; exact w.size h hh
  · rintro a _ (rfl | rfl)
    · rw [hLh]; exact w.nodup g hg
    · rw [hLg]; exact w.nodup h hh
  · rintro a _ (rfl | rfl)
    · rw [hLh]; exact w.node g hg
    · rw [hLg]; exact w.node h hh
  · intro a _ ha
    simp only [not_or] at ha
    exact ⟨hLo a ha.1 ha.2, by rw [ss, upd_ne _ _ ha.2, upd_ne _ _ ha.1]⟩
  · intro a b ha hb hab x hx hx2
    have key : ∀ a, H a → ∃ a', H a' ∧ upd (upd L h (L g)) g (L h) a = L a' ∧ (a = h → a' = g) ∧ (a = g → a' = h) ∧ (a ≠ h → a ≠ g → a' = a) := by
      intro a ha
      by_cases a1 : a = h
      · exact ⟨g, hg, by rw [a1, hLh], fun _ => rfl, fun e => absurd (a1.symm.trans e) hne, fun n => absurd a1 n⟩
      · by_cases a2 : a = g
        · exact ⟨h, hh, by rw [a2, hLg], fun e => absurd e a1, fun _ => rfl, fun _ n => absurd a2 n⟩
        · exact ⟨a, ha, hLo a a1 a2, fun e => absurd e a1, fun e => absurd e a2, fun _ _ => rfl⟩
    obtain ⟨a', ha', ea, a1, a2, a3⟩ := key a ha
    obtain ⟨b', hb', eb, b1, b2, b3⟩ := key b hb
    rw [ea] at hx
    rw [eb] at hx2
    exact w.apart a' b' ha' hb' (by grind) x hx hx2
  · intro u hu hall
    simp only [not_or] at hu
    have q1 := (hall h hh (.inl rfl)).1
    have q2 := (hall g hg (.inr rfl)).1
    rw [sn, sp]
    constructor
    · grind
    · grind
  · rintro u _ hall a _ (rfl | rfl) hm
    · exact absurd (by rw [hLg]; exact hm) (hall _ hg)
    · exact absurd (by rw [hLh]; exact hm) (hall _ hh)
  · rintro a (rfl | rfl)
    · exact hh
    · exact hg

/-- **C162.** Iteration visits the entries in order and then gets to the end; `size` is their number. -/
theorem C162_iter {H : Nat → Prop} {m : M} {L : Nat → List Nat} (w : Lists H m L) {h : Nat} (hh : H h) :
    (∀ n x, (L h)[n]? = some x → m.iter h n = x) ∧ m.iter h (m.size h) = h ∧ m.size h = (L h).length := by
  have key : ∀ (l : List Nat) (a : Nat), Path m a l h → ∀ n, n ≤ l.length → Nat.repeat m.next (n + 1) a = (l[n]?).getD h := by
    intro l
    induction l with
    | nil => intro a hp n hn; simp at hn; subst hn; simpa [Nat.repeat] using hp.1
    | cons x l ih =>
      intro a hp n hn
      cases n with
      | zero => simpa [Nat.repeat] using hp.1
      | succ n =>
        have := ih x hp.2.2 n (by simpa using hn)
        have hr : ∀ k b, Nat.repeat m.next (k + 1) b = Nat.repeat m.next k (m.next b) := by
          intro k
          induction k with
          | zero => intro b; rfl
          | succ k ihk => intro b; rw [Nat.repeat, ihk]; rfl
        rw [hr, hp.1, this]; simp
  have hi : ∀ n, m.iter h n = Nat.repeat m.next (n + 1) h := by
    intro n
    induction n with
    | zero => rfl
    | succ n ih => rw [M.iter, ih]; rfl
  have hs := w.size h hh
  refine ⟨fun n x hx => ?_, ?_, hs⟩
  · have hn : n < (L h).length := (List.getElem?_eq_some_iff.mp hx).1
    rw [hi, key (L h) h (w.path h hh) n (by omega), hx]; rfl
  · rw [hi, hs, key (L h) h (w.path h hh) _ (Nat.le_refl _)]; simp

/-- A list of two entries is swapped with an empty one. -/
example : Lists (· < 2) (((M.init.pushBack 0 5).pushBack 0 6).swap 0 1) (fun h => if h = 1 then [5, 6] else []) := by
  have w0 := C162_init (· < 2)
  have w1 := C162_pushBack w0 (h := 0) (x := 5) (by decide) (by decide) (by intro g hg; grind)
  have w2 := C162_pushBack w1 (h := 0) (x := 6) (by decide) (by decide) (by intro g hg; simp only [upd_apply]; grind)
  have w3 := C162_swap w2 (h := 0) (g := 1) (by decide) (by decide) (by decide)
  refine cast (congrArg _ (funext fun a => ?_)) w3
  simp only [upd_apply]
  by_cases h0 : a = 0
  · subst h0; decide
  · by_cases h1 : a = 1
    · subst h1; decide
    · simp [h0, h1]

/-- Two lists (0 and 1); three entries go to the first and two to the second, which is moved to the first one. -/
example : Lists (· < 2) ((((((M.init.pushBack 0 5).pushBack 0 6).pushFront 0 4).pushBack 1 8).pushBack 1 9).splice 0 1) (fun h => if h = 0 then [4, 5, 6, 8, 9] else []) := by
  have w0 := C162_init (· < 2)
  have w1 := C162_pushBack w0 (h := 0) (x := 5) (by decide) (by decide) (by intro g hg; grind)
  have w2 := C162_pushBack w1 (h := 0) (x := 6) (by decide) (by decide) (by intro g hg; simp only [upd_apply]; grind)
  have w3 := C162_pushFront w2 (h := 0) (x := 4) (by decide) (by decide) (by intro g hg; simp only [upd_apply]; grind)
  have w4 := C162_pushBack w3 (h := 1) (x := 8) (by decide) (by decide) (by intro g hg; simp only [upd_apply]; grind)
  have w5 := C162_pushBack w4 (h := 1) (x := 9) (by decide) (by decide) (by intro g hg; simp only [upd_apply]; grind)
  have w6 := C162_splice w5 (h := 0) (g := 1) (by decide) (by decide) (by decide)
  refine cast (congrArg _ (funext fun a => ?_)) w6
  simp only [upd_apply]
  by_cases h0 : a = 0
  · subst h0; decide
  · by_cases h1 : a = 1
    · subst h1; decide
    · simp [h0, h1]

end Verif.Container.Dlist
