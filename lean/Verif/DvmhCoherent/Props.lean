import Verif.DvmhCoherent.Model
import Mathlib.Tactic.Common

/-!
# Property C150: host and device copies of data are coherent
-/

namespace Tsar.DvmhCoherent

variable {Val : Type}

/-- Nodes of accessed memory describe an element `l`: they are reachable from nodes of all variables which contain it. -/
def Describes (c : Ctx) (covers : Var → Loc → Bool) (n : Node) (l : Loc) : Prop :=
  (∀ d ∈ c.toActual, ∀ v ∈ d.vars, covers v l = true → c.unreach n d.node = false) ∧
  (∀ d ∈ c.toGetActual, ∀ v ∈ d.vars, covers v l = true → c.unreach n d.node = false)

/-- A variable is mentioned in one of elements. -/
def Listed (ds : List Data) (v : Var) : Prop := ∃ d ∈ ds, v ∈ d.vars

/-- What is known about lists of variables: alias nodes of overlapped variables are reachable from each other. -/
structure Sound (c : Ctx) (covers : Var → Loc → Bool) : Prop where
  overlap : ∀ d ∈ c.toActual, ∀ e ∈ c.toGetActual, ∀ v ∈ d.vars, ∀ w ∈ e.vars, ∀ l, covers v l = true →
    covers w l = true → c.unreach d.node e.node = false

/-- Accesses of an instruction are known, variables of a region are listed. -/
def Known (c : Ctx) (covers : Var → Loc → Bool) : Step Val → Prop
  | .instr accs reads f =>
    (∀ l ∈ reads, ∃ a ∈ accs, a.read = true ∧ ∃ n ∈ a.nodes, Describes c covers n l) ∧
    (∀ vals, ∀ w ∈ f vals, ∃ a ∈ accs, a.write = true ∧ ∃ n ∈ a.nodes, Describes c covers n w.1)
  | .region ins outs reads f =>
    (∀ v ∈ ins, Listed c.toActual v) ∧ (∀ v ∈ outs, Listed c.toGetActual v ∧ v ∈ ins) ∧
    (∀ l ∈ reads, inVars covers ins l = true) ∧ (∀ vals, ∀ w ∈ f vals, inVars covers outs w.1 = true)

/-- There are no writes to an induction variable of a parallel loop. -/
def Plain : Step Val → Prop
  | .instr accs _ _ => ∀ a ∈ accs, a.write = true → a.induction = false
  | .region .. => True

/-! ### Directives -/

/-- Directives are only added. -/
structure Le (s t : Dirs) : Prop where
  g : ∀ v ∈ s.getActual, v ∈ t.getActual
  a : ∀ v ∈ s.actual, v ∈ t.actual

theorem Le.refl (s : Dirs) : Le s s := ⟨fun _ => id, fun _ => id⟩

theorem Le.trans {s t u : Dirs} (h : Le s t) (k : Le t u) : Le s u := ⟨fun v h' => k.g v (h.g v h'), fun v h' => k.a v (h.a v h')⟩

theorem foldl_le {α : Type} {f : Dirs → α → Dirs} (h : ∀ s x, Le s (f s x)) : ∀ (xs : List α) (s : Dirs), Le s (xs.foldl f s)
  | [], s => Le.refl s
  | x :: xs, s => (h s x).trans (foldl_le h xs (f s x))

theorem addGet_le (c : Ctx) (n : Node) (s : Dirs) (d : Data) : Le s (addGet c n s d) := by
  unfold addGet
  split_ifs
  · exact Le.refl s
  · exact ⟨fun v h => by simp [h], fun v h => h⟩

theorem addGetActualIf_le (c : Ctx) (n : Node) (s : Dirs) : Le s (addGetActualIf c n s) := foldl_le (addGet_le c n) _ s

theorem addActual_le (c : Ctx) (n : Node) (s : Dirs) (d : Data) : Le s (addActual c n s d) := by
  unfold addActual
  split_ifs
  · exact Le.refl s
  · have h : Le s { s with actual := s.actual ++ d.vars } := ⟨fun v h => h, fun v h => by simp [h]⟩
    exact h.trans (addGetActualIf_le c d.node _)

theorem addTransferToWrite_le (c : Ctx) (n : Node) (s : Dirs) : Le s (addTransferToWrite c n s) :=
  foldl_le (addActual_le c n) _ s

theorem processNode_le (c : Ctx) (a : Access) (s : Dirs) (n : Node) : Le s (processNode c a s n) := by
  unfold processNode
  split_ifs
  · exact (addTransferToWrite_le c n s).trans (addGetActualIf_le c n _)
  · exact addTransferToWrite_le c n s
  · exact addGetActualIf_le c n s
  · exact Le.refl s

theorem processAccess_le (c : Ctx) (s : Dirs) (a : Access) : Le s (processAccess c s a) := by
  unfold processAccess
  split_ifs
  · exact Le.refl s
  · exact foldl_le (processNode_le c a) _ s

/-- Invariant of directives of an instruction: variables of inserted nodes are listed in `get_actual`; if a variable is
listed in `actual` then overlapped variables are listed in `get_actual`. -/
structure Ok (c : Ctx) (covers : Var → Loc → Bool) (s : Dirs) : Prop where
  ins : ∀ n ∈ s.inserted, ∀ d ∈ c.toGetActual, d.node = n → ∀ v ∈ d.vars, v ∈ s.getActual
  act : ∀ v ∈ s.actual, Listed c.toActual v
  pre : ∀ v ∈ s.actual, ∀ d ∈ c.toGetActual, ∀ w ∈ d.vars, ∀ l, covers v l = true → covers w l = true →
    w ∈ s.getActual

/-- Alias nodes are keys of lists. -/
def Keys (c : Ctx) : Prop := (c.toGetActual.map Data.node).Nodup

theorem key_eq {c : Ctx} (hk : Keys c) {d e : Data} (hd : d ∈ c.toGetActual) (he : e ∈ c.toGetActual)
    (h : d.node = e.node) : d = e := by
  unfold Keys at hk
  generalize c.toGetActual = ds at hk hd he
  induction ds with
  | nil => simp at hd
  | cons x ds ih =>
    rw [List.map_cons, List.nodup_cons] at hk
    rcases List.mem_cons.mp hd with hx | hd' <;> rcases List.mem_cons.mp he with hy | he'
    · rw [hx, hy]
    · exact absurd (hx ▸ h ▸ List.mem_map_of_mem he') hk.1
    · exact absurd (hy ▸ h ▸ List.mem_map_of_mem hd') hk.1
    · exact ih hk.2 hd' he'

theorem addGet_ok {c : Ctx} {covers : Var → Loc → Bool} (hk : Keys c) {n : Node} {s : Dirs} (h : Ok c covers s)
    {d : Data} (hd : d ∈ c.toGetActual) :
    Ok c covers (addGet c n s d) ∧ (c.unreach n d.node = false → ∀ v ∈ d.vars, v ∈ (addGet c n s d).getActual) := by
  unfold addGet
  split_ifs with hc
  · refine ⟨h, fun hu v hv => ?_⟩
    simp only [hu, Bool.or_false, decide_eq_true_eq] at hc
    exact h.ins _ hc d hd rfl v hv
  · refine ⟨⟨fun m hm e he hem v hv => ?_, h.act, fun v hv e he w hw l h1 h2 => ?_⟩, fun _ v hv => by simp [hv]⟩
    · rcases List.mem_cons.mp hm with rfl | hm
      · have := key_eq hk he hd hem
        subst this
        simp [hv]
      · simp [h.ins m hm e he hem v hv]
    · simp [h.pre v hv e he w hw l h1 h2]

theorem foldGet_ok {c : Ctx} {covers : Var → Loc → Bool} (hk : Keys c) {n : Node} : ∀ (ds : List Data) (s : Dirs),
    (∀ d ∈ ds, d ∈ c.toGetActual) → Ok c covers s → Ok c covers (ds.foldl (addGet c n) s) ∧
      ∀ d ∈ ds, c.unreach n d.node = false → ∀ v ∈ d.vars, v ∈ (ds.foldl (addGet c n) s).getActual
  | [], s, _, h => ⟨h, fun d hd => by simp at hd⟩
  | d :: ds, s, hm, h => by
    obtain ⟨h1, h2⟩ := addGet_ok (n := n) hk h (hm d List.mem_cons_self)
    obtain ⟨k1, k2⟩ := foldGet_ok hk ds (addGet c n s d) (fun e he => hm e (List.mem_cons_of_mem _ he)) h1
    refine ⟨k1, fun e he hu v hv => ?_⟩
    rcases List.mem_cons.mp he with rfl | he
    · exact (foldl_le (addGet_le c n) ds _).g v (h2 hu v hv)
    · exact k2 e he hu v hv

theorem addGetActualIf_ok {c : Ctx} {covers : Var → Loc → Bool} (hk : Keys c) {n : Node} {s : Dirs} (h : Ok c covers s) :
    Ok c covers (addGetActualIf c n s) ∧
      ∀ d ∈ c.toGetActual, c.unreach n d.node = false → ∀ v ∈ d.vars, v ∈ (addGetActualIf c n s).getActual :=
  foldGet_ok hk _ s (fun _ => id) h

/-- A weaker invariant while variables of an element are added. -/
theorem addActual_ok {c : Ctx} {covers : Var → Loc → Bool} (hk : Keys c) (hs : Sound c covers) {n : Node} {s : Dirs}
    (h : Ok c covers s) {d : Data} (hd : d ∈ c.toActual) :
    Ok c covers (addActual c n s d) ∧ (c.unreach n d.node = false → ∀ v ∈ d.vars, v ∈ (addActual c n s d).actual) := by
  unfold addActual
  split_ifs with hc
  · exact ⟨h, fun hu => by rw [hc] at hu; simp at hu⟩
  · -- `actual` does not influence `addGetActualIf`.
    have comm : ∀ (ds : List Data) (t : Dirs) (a : List Var),
        ds.foldl (addGet c d.node) { t with actual := a } = { ds.foldl (addGet c d.node) t with actual := a } := by
      intro ds
      induction ds with
      | nil => intro t a; rfl
      | cons e ds ih =>
        intro t a
        rw [List.foldl_cons, List.foldl_cons, ← ih]
        congr 1
        unfold addGet
        split_ifs <;> rfl
    have act : ∀ (ds : List Data) (t : Dirs), (ds.foldl (addGet c d.node) t).actual = t.actual := by
      intro ds
      induction ds with
      | nil => intro t; rfl
      | cons e ds ih =>
        intro t
        rw [List.foldl_cons, ih]
        unfold addGet
        split_ifs <;> rfl
    obtain ⟨k1, k2⟩ := addGetActualIf_ok (n := d.node) hk h
    have e1 : (addGetActualIf c d.node { s with actual := s.actual ++ d.vars }) =
        { addGetActualIf c d.node s with actual := s.actual ++ d.vars } := comm _ _ _
    rw [e1]
    have e2 : (addGetActualIf c d.node s).actual = s.actual := act _ _
    refine ⟨⟨k1.ins, fun v hv => ?_, fun v hv e he w hw l h1 h2 => ?_⟩, fun _ v hv => by simp [hv]⟩
    · rcases List.mem_append.mp hv with hv | hv
      · exact h.act v hv
      · exact ⟨d, hd, hv⟩
    · rcases List.mem_append.mp hv with hv | hv
      · exact k1.pre v (e2 ▸ hv) e he w hw l h1 h2
      · exact k2 e he (hs.overlap d hd e he v hv w hw l h1 h2) w hw

theorem foldActual_ok {c : Ctx} {covers : Var → Loc → Bool} (hk : Keys c) (hs : Sound c covers) {n : Node} :
    ∀ (ds : List Data) (s : Dirs), (∀ d ∈ ds, d ∈ c.toActual) → Ok c covers s →
      Ok c covers (ds.foldl (addActual c n) s) ∧
      ∀ d ∈ ds, c.unreach n d.node = false → ∀ v ∈ d.vars, v ∈ (ds.foldl (addActual c n) s).actual
  | [], s, _, h => ⟨h, fun d hd => by simp at hd⟩
  | d :: ds, s, hm, h => by
    obtain ⟨h1, h2⟩ := addActual_ok (n := n) hk hs h (hm d List.mem_cons_self)
    obtain ⟨k1, k2⟩ := foldActual_ok hk hs ds (addActual c n s d) (fun e he => hm e (List.mem_cons_of_mem _ he)) h1
    refine ⟨k1, fun e he hu v hv => ?_⟩
    rcases List.mem_cons.mp he with rfl | he
    · exact (foldl_le (addActual_le c n) ds _).a v (h2 hu v hv)
    · exact k2 e he hu v hv

/-- Directives for an access. -/
theorem processNode_ok {c : Ctx} {covers : Var → Loc → Bool} (hk : Keys c) (hs : Sound c covers) (a : Access) {s : Dirs}
    (h : Ok c covers s) (n : Node) : Ok c covers (processNode c a s n) ∧
      (a.write = true → ∀ d ∈ c.toActual, c.unreach n d.node = false → ∀ v ∈ d.vars, v ∈ (processNode c a s n).actual) ∧
      (a.read = true → ∀ d ∈ c.toGetActual, c.unreach n d.node = false → ∀ v ∈ d.vars,
        v ∈ (processNode c a s n).getActual) := by
  unfold processNode
  cases hw : a.write <;> cases hr : a.read
  · exact ⟨h, by simp, by simp⟩
  · obtain ⟨h1, h2⟩ := addGetActualIf_ok (n := n) hk h
    exact ⟨h1, by simp, fun _ => h2⟩
  · obtain ⟨h1, h2⟩ := foldActual_ok (n := n) hk hs c.toActual s (fun _ => id) h
    exact ⟨h1, fun _ => h2, by simp⟩
  · obtain ⟨h1, h2⟩ := foldActual_ok (n := n) hk hs c.toActual s (fun _ => id) h
    obtain ⟨k1, k2⟩ := addGetActualIf_ok (n := n) hk h1
    exact ⟨k1, fun _ d hd hu v hv => (addGetActualIf_le c n _).a v (h2 d hd hu v hv), fun _ => k2⟩

theorem foldNode_ok {c : Ctx} {covers : Var → Loc → Bool} (hk : Keys c) (hs : Sound c covers) (a : Access) :
    ∀ (ns : List Node) (s : Dirs), Ok c covers s → Ok c covers (ns.foldl (processNode c a) s) ∧ ∀ n ∈ ns,
      (a.write = true → ∀ d ∈ c.toActual, c.unreach n d.node = false → ∀ v ∈ d.vars,
        v ∈ (ns.foldl (processNode c a) s).actual) ∧
      (a.read = true → ∀ d ∈ c.toGetActual, c.unreach n d.node = false → ∀ v ∈ d.vars,
        v ∈ (ns.foldl (processNode c a) s).getActual)
  | [], s, h => ⟨h, fun n hn => by simp at hn⟩
  | m :: ns, s, h => by
    obtain ⟨h1, h2, h3⟩ := processNode_ok hk hs a h m
    obtain ⟨k1, k2⟩ := foldNode_ok hk hs a ns _ h1
    refine ⟨k1, fun n hn => ?_⟩
    rcases List.mem_cons.mp hn with rfl | hn
    · have hle := foldl_le (processNode_le c a) ns (processNode c a s n)
      exact ⟨fun hw d hd hu v hv => hle.a v (h2 hw d hd hu v hv), fun hr d hd hu v hv => hle.g v (h3 hr d hd hu v hv)⟩
    · exact k2 n hn

theorem process_ok {c : Ctx} {covers : Var → Loc → Bool} (hk : Keys c) (hs : Sound c covers) (as : List Access)
    (hp : ∀ a ∈ as, a.write = true → a.induction = false) :
    Ok c covers (process c as) ∧ ∀ a ∈ as, ∀ n ∈ a.nodes,
      (a.write = true → ∀ d ∈ c.toActual, c.unreach n d.node = false → ∀ v ∈ d.vars, v ∈ (process c as).actual) ∧
      (a.read = true → ∀ d ∈ c.toGetActual, c.unreach n d.node = false → ∀ v ∈ d.vars,
        v ∈ (process c as).getActual) := by
  have key : ∀ (as : List Access) (s : Dirs), (∀ a ∈ as, a.write = true → a.induction = false) → Ok c covers s →
      Ok c covers (as.foldl (processAccess c) s) ∧ ∀ a ∈ as, ∀ n ∈ a.nodes,
      (a.write = true → ∀ d ∈ c.toActual, c.unreach n d.node = false → ∀ v ∈ d.vars,
        v ∈ (as.foldl (processAccess c) s).actual) ∧
      (a.read = true → ∀ d ∈ c.toGetActual, c.unreach n d.node = false → ∀ v ∈ d.vars,
        v ∈ (as.foldl (processAccess c) s).getActual) := by
    intro as
    induction as with
    | nil => intro s _ h; exact ⟨h, fun a ha => by simp at ha⟩
    | cons b as ih =>
      intro s hp h
      have hb : processAccess c s b = b.nodes.foldl (processNode c b) s := by
        unfold processAccess
        rw [if_neg]
        intro hc
        simp only [Bool.and_eq_true] at hc
        have := hp b List.mem_cons_self hc.1
        rw [hc.2] at this; simp at this
      obtain ⟨h1, h2⟩ := foldNode_ok hk hs b b.nodes s h
      rw [← hb] at h1 h2
      obtain ⟨k1, k2⟩ := ih _ (fun a ha => hp a (List.mem_cons_of_mem _ ha)) h1
      refine ⟨k1, fun a ha n hn => ?_⟩
      rcases List.mem_cons.mp ha with rfl | ha
      · have hle := foldl_le (processAccess_le c) as (processAccess c s a)
        exact ⟨fun hw d hd hu v hv => hle.a v ((h2 n hn).1 hw d hd hu v hv),
          fun hr d hd hu v hv => hle.g v ((h2 n hn).2 hr d hd hu v hv)⟩
      · exact k2 a ha n hn
  exact key as {} hp ⟨by simp, by simp, by simp⟩

/-! ### Coherence -/

/-- Copies which are up to date contain current values and at least one copy is up to date. -/
structure Coherent (c : Ctx) (covers : Var → Loc → Bool) (mem : Loc → Val) (m : Mach Val) : Prop where
  host : ∀ l, m.hv l = true → m.host l = mem l
  dev : ∀ l, m.dv l = true → m.dev l = mem l
  one : ∀ l, m.hv l = false → m.dv l = true
  onDev : ∀ l, m.dv l = true → ∃ v, Listed c.toActual v ∧ covers v l = true
  onlyDev : ∀ l, m.hv l = false → ∃ v, Listed c.toGetActual v ∧ covers v l = true

theorem mem_inVars {covers : Var → Loc → Bool} {vs : List Var} {l : Loc} :
    inVars covers vs l = true ↔ ∃ v ∈ vs, covers v l = true := by simp [inVars]

theorem getActual_coherent {c : Ctx} {covers : Var → Loc → Bool} {mem : Loc → Val} {m : Mach Val}
    (h : Coherent c covers mem m) (vs : List Var) : Coherent c covers mem (m.getActual covers vs) := by
  refine ⟨fun l hl => ?_, h.dev, fun l hl => ?_, h.onDev, fun l hl => ?_⟩
  · simp only [Mach.getActual, Bool.or_eq_true, Bool.and_eq_true, Bool.not_eq_true'] at hl ⊢
    split_ifs with hc
    · exact h.dev l (h.one l hc.2)
    · refine h.host l ?_
      rcases hl with hl | hl
      · by_contra hn
        exact hc ⟨hl, by simpa using hn⟩
      · exact hl
  · simp only [Mach.getActual, Bool.or_eq_false_iff] at hl
    exact h.one l hl.2
  · simp only [Mach.getActual, Bool.or_eq_false_iff] at hl
    exact h.onlyDev l hl.2

theorem store_congr (ws : List (Loc × Val)) : ∀ {a b : Loc → Val} {l : Loc}, a l = b l → store ws a l = store ws b l := by
  induction ws with
  | nil => intro a b l h; exact h
  | cons w ws ih =>
    intro a b l h
    refine ih (a := fun l => if l = w.1 then w.2 else a l) (b := fun l => if l = w.1 then w.2 else b l) ?_
    show (if l = w.1 then w.2 else a l) = (if l = w.1 then w.2 else b l)
    rw [h]

theorem store_other (ws : List (Loc × Val)) {l : Loc} : ∀ {a : Loc → Val}, (∀ w ∈ ws, w.1 ≠ l) → store ws a l = a l := by
  induction ws with
  | nil => intro a _; rfl
  | cons w ws ih =>
    intro a h
    refine (ih (a := fun l => if l = w.1 then w.2 else a l) (fun x hx => h x (List.mem_cons_of_mem _ hx))).trans ?_
    simp [Ne.symm (h w List.mem_cons_self)]

theorem exec_coherent {c : Ctx} {covers : Var → Loc → Bool} (hk : Keys c) (hs : Sound c covers) {mem : Loc → Val}
    {m : Mach Val} (h : Coherent c covers mem m) {s : Step Val} (hkn : Known c covers s) (hp : Plain s) :
    (s.exec c covers m).2 = (s.ref mem).2 ∧ Coherent c covers (s.ref mem).1 (s.exec c covers m).1 := by
  cases s with
  | instr accs reads f =>
    obtain ⟨hr, hw⟩ := hkn
    obtain ⟨hok, hacc⟩ := process_ok hk hs accs hp
    have hg := getActual_coherent h (process c accs).getActual
    -- Elements of variables in `get_actual` are up to date.
    have hhv : ∀ l, (∀ v, Listed c.toGetActual v → covers v l = true → v ∈ (process c accs).getActual) →
        (m.getActual covers (process c accs).getActual).hv l = true := by
      intro l hl
      by_contra hn
      have hn : (m.getActual covers (process c accs).getActual).hv l = false := by simpa using hn
      obtain ⟨v, hv, hc⟩ := hg.onlyDev l hn
      simp only [Mach.getActual, Bool.or_eq_false_iff] at hn
      have := mem_inVars.mpr ⟨v, hl v hv hc, hc⟩
      rw [hn.1] at this; simp at this
    generalize hm' : m.getActual covers (process c accs).getActual = m' at hg hhv
    have hvals : reads.map m'.host = reads.map mem := by
      refine List.map_congr_left fun l hl => hg.host l (hhv l ?_)
      obtain ⟨a, ha, har, n, hn, hd⟩ := hr l hl
      rintro v ⟨d, hdm, hv⟩ hc
      exact (hacc a ha n hn).2 har d hdm (hd.2 d hdm v hv hc) v hv
    have hact : ∀ l, inVars covers (process c accs).actual l = true → m'.hv l = true := by
      intro l hl
      obtain ⟨v, hv, hc⟩ := mem_inVars.mp hl
      refine hhv l ?_
      rintro w ⟨d, hdm, hw⟩ hcw
      exact hok.pre v hv d hdm w hw l hc hcw
    have hwr : ∀ w ∈ f (reads.map mem), ∀ v, Listed c.toActual v → covers v w.1 = true →
        inVars covers (process c accs).actual w.1 = true := by
      rintro w hwm v ⟨d, hdm, hv⟩ hc
      obtain ⟨a, ha, haw, n, hn, hd⟩ := hw _ w hwm
      exact mem_inVars.mpr ⟨v, (hacc a ha n hn).1 haw d hdm (hd.1 d hdm v hv hc) v hv, hc⟩
    simp only [Step.exec, Step.ref, hm', hvals]
    refine ⟨trivial, ?_, ?_, ?_, ?_, ?_⟩
    · intro l hl
      simp only [Mach.actual, Bool.or_eq_true] at hl ⊢
      refine store_congr _ (hg.host l ?_)
      rcases hl with hl | hl
      · exact hact l hl
      · exact hl
    · intro l hl
      simp only [Mach.actual, Bool.and_eq_true, Bool.not_eq_true'] at hl ⊢
      have hno : ∀ w ∈ f (reads.map mem), w.1 ≠ l := by
        rintro w hwm rfl
        obtain ⟨v, hv, hc⟩ := hg.onDev _ hl.2
        have := hwr w hwm v hv hc
        rw [hl.1] at this; simp at this
      rw [store_other _ hno]
      exact hg.dev l hl.2
    · intro l hl
      simp only [Mach.actual, Bool.or_eq_false_iff, Bool.and_eq_true, Bool.not_eq_true'] at hl ⊢
      exact ⟨hl.1, hg.one l hl.2⟩
    · intro l hl
      simp only [Mach.actual, Bool.and_eq_true, Bool.not_eq_true'] at hl
      exact hg.onDev l hl.2
    · intro l hl
      simp only [Mach.actual, Bool.or_eq_false_iff] at hl
      exact hg.onlyDev l hl.2
  | region ins outs reads f =>
    obtain ⟨hin, hout, hr, hw⟩ := hkn
    have hdev : ∀ l, inVars covers ins l = true ∨ m.dv l = true → (m.enter covers ins).dev l = mem l := by
      intro l hl
      simp only [Mach.enter, Bool.and_eq_true, Bool.not_eq_true']
      split_ifs with hc
      · refine h.host l ?_
        by_contra hn
        have := h.one l (by simpa using hn)
        rw [hc.2] at this; simp at this
      · refine h.dev l ?_
        rcases hl with hl | hl
        · by_contra hn
          exact hc ⟨hl, by simpa using hn⟩
        · exact hl
    have hvals : reads.map (m.enter covers ins).dev = reads.map mem :=
      List.map_congr_left fun l hl => hdev l (.inl (hr l hl))
    simp only [Step.exec, Step.ref, hvals]
    have houtin : ∀ l, inVars covers outs l = true → inVars covers ins l = true := by
      intro l hl
      obtain ⟨v, hv, hc⟩ := mem_inVars.mp hl
      exact mem_inVars.mpr ⟨v, (hout v hv).2, hc⟩
    refine ⟨trivial, ?_, ?_, ?_, ?_, ?_⟩
    · intro l hl
      simp only [Mach.leave, Mach.enter, Bool.and_eq_true, Bool.not_eq_true'] at hl ⊢
      have hno : ∀ w ∈ f (reads.map mem), w.1 ≠ l := by
        rintro w hwm rfl
        have := hw _ w hwm
        rw [hl.1] at this; simp at this
      rw [store_other _ hno]
      exact h.host l hl.2
    · intro l hl
      simp only [Mach.leave] at hl ⊢
      refine store_congr _ (hdev l ?_)
      simp only [Mach.enter, Bool.or_eq_true] at hl
      rcases hl with hl | hl | hl
      · exact .inl (houtin l hl)
      · exact .inl hl
      · exact .inr hl
    · intro l hl
      simp only [Mach.leave, Mach.enter, Bool.and_eq_false_iff, Bool.not_eq_false', Bool.or_eq_true] at hl ⊢
      rcases hl with hl | hl
      · exact .inl hl
      · exact .inr (.inr (h.one l hl))
    · intro l hl
      simp only [Mach.leave, Mach.enter, Bool.or_eq_true] at hl
      rcases hl with hl | hl | hl
      · obtain ⟨v, hv, hc⟩ := mem_inVars.mp (houtin l hl)
        exact ⟨v, hin v hv, hc⟩
      · obtain ⟨v, hv, hc⟩ := mem_inVars.mp hl
        exact ⟨v, hin v hv, hc⟩
      · exact h.onDev l hl
    · intro l hl
      simp only [Mach.leave, Mach.enter, Bool.and_eq_false_iff, Bool.not_eq_false'] at hl
      rcases hl with hl | hl
      · obtain ⟨v, hv, hc⟩ := mem_inVars.mp hl
        exact ⟨v, (hout v hv).1, hc⟩
      · exact h.onlyDev l hl

/-- An element is not a part of a local variable which is changed on a device. -/
def Outer (c : Ctx) (covers : Var → Loc → Bool) (l : Loc) : Prop :=
  ∀ v, Listed c.toGetActual v → covers v l = true → c.outer v = true

theorem run_coherent {c : Ctx} {covers : Var → Loc → Bool} (hk : Keys c) (hs : Sound c covers) :
    ∀ (ss : List (Step Val)) {mem : Loc → Val} {m : Mach Val}, Coherent c covers mem m → (∀ s ∈ ss, Known c covers s) →
      (∀ s ∈ ss, Plain s) →
        (run c covers m ss).2 = (refRun mem ss).2 ∧ Coherent c covers (refRun mem ss).1 (run c covers m ss).1
  | [], _, _, h, _, _ => ⟨rfl, h⟩
  | s :: ss, mem, m, h, hkn, hp => by
    obtain ⟨h1, h2⟩ := exec_coherent hk hs h (hkn s List.mem_cons_self) (hp s List.mem_cons_self)
    obtain ⟨k1, k2⟩ := run_coherent hk hs ss h2 (fun t ht => hkn t (List.mem_cons_of_mem _ ht))
      (fun t ht => hp t (List.mem_cons_of_mem _ ht))
    simp only [run, refRun]
    exact ⟨by rw [h1, k1], k2⟩

/-- Memory at the entry to a function: a host contains current values, a device may contain copies (even old ones) of
variables which exist outside the function. -/
structure Entry (c : Ctx) (covers : Var → Loc → Bool) (mem : Loc → Val) (m : Mach Val) : Prop where
  host : ∀ l, m.hv l = true ∧ m.host l = mem l
  dev : ∀ l, m.dv l = true → ∃ v, Listed c.toActual v ∧ c.outer v = true ∧ covers v l = true

/-- Directives are sufficient if they mention all outer variables. -/
theorem around_coherent {c : Ctx} {covers : Var → Loc → Bool} (hk : Keys c) (hs : Sound c covers)
    {acts gets : List Var} (ha : ∀ v, Listed c.toActual v → c.outer v = true → v ∈ acts)
    (hg : ∀ v, Listed c.toGetActual v → c.outer v = true → v ∈ gets)
    (ss : List (Step Val)) {mem : Loc → Val} {m : Mach Val} (he : Entry c covers mem m)
    (hkn : ∀ s ∈ ss, Known c covers s) (hp : ∀ s ∈ ss, Plain s) :
    (around c covers acts gets m ss).2 = (refRun mem ss).2 ∧
      ∀ l, Outer c covers l → (around c covers acts gets m ss).1.hv l = true ∧
        (around c covers acts gets m ss).1.host l = (refRun mem ss).1 l := by
  have hdv : ∀ l, (m.actual covers acts).dv l = false := by
    intro l
    by_contra hn
    have hn : (m.actual covers acts).dv l = true := by simpa using hn
    simp only [Mach.actual, Bool.and_eq_true, Bool.not_eq_true'] at hn
    obtain ⟨v, hv, ho, hc⟩ := he.dev l hn.2
    have := mem_inVars.mpr ⟨v, ha v hv ho, hc⟩
    rw [hn.1] at this; simp at this
  have hhv : ∀ l, (m.actual covers acts).hv l = true := fun l => by simp [Mach.actual, (he.host l).1]
  have hco : Coherent c covers mem (m.actual covers acts) := by
    refine ⟨fun l _ => (he.host l).2, fun l h => ?_, fun l h => ?_, fun l h => ?_, fun l h => ?_⟩
    · rw [hdv l] at h; simp at h
    · rw [hhv l] at h; simp at h
    · rw [hdv l] at h; simp at h
    · rw [hhv l] at h; simp at h
  obtain ⟨h1, h2⟩ := run_coherent hk hs ss hco hkn hp
  have h3 := getActual_coherent h2 gets
  refine ⟨h1, fun l ho => ?_⟩
  have hv : ((run c covers (m.actual covers acts) ss).1.getActual covers gets).hv l = true := by
    by_contra hn
    have hn : ((run c covers (m.actual covers acts) ss).1.getActual covers gets).hv l = false := by simpa using hn
    obtain ⟨v, hv, hcv⟩ := h3.onlyDev l hn
    simp only [Mach.getActual, Bool.or_eq_false_iff] at hn
    have := mem_inVars.mpr ⟨v, hg v hv (ho v hv hcv), hcv⟩
    rw [hn.1] at this; simp at this
  exact ⟨hv, h3.host l hv⟩

/-- **C150 (partial).** Execution of a function with a host and a device is the same as execution with a single memory: the
same values are read by all instructions and regions, and after the exit memory of a host contains current values of all
elements except local variables.

The full statement is without `hp`: it is false, see `induction_fails` and `induction_read_fails`. -/
theorem call_coherent_partial {c : Ctx} {covers : Var → Loc → Bool} (hk : Keys c) (hs : Sound c covers)
    (ss : List (Step Val)) {mem : Loc → Val} {m : Mach Val} (he : Entry c covers mem m)
    (hkn : ∀ s ∈ ss, Known c covers s) (hp : ∀ s ∈ ss, Plain s) :
    (call c covers m ss).2 = (refRun mem ss).2 ∧
      ∀ l, Outer c covers l → (call c covers m ss).1.hv l = true ∧ (call c covers m ss).1.host l = (refRun mem ss).1 l :=
  around_coherent hk hs
    (fun v ⟨d, hd, hv⟩ ho => List.mem_filter.mpr ⟨List.mem_flatMap.mpr ⟨d, hd, hv⟩, ho⟩)
    (fun v ⟨d, hd, hv⟩ ho => List.mem_filter.mpr ⟨List.mem_flatMap.mpr ⟨d, hd, hv⟩, ho⟩) ss he hkn hp

/-! ### Directives around calls -/

/-- **C151.** Variables which are copied before a call are variables of directives at the entry to a callee; a variable may
be optimized iff it is optimized in a caller. -/
theorem before_call (active isFinal : Bool) (actuals gets : List (List Var)) (toA toG : Var → Bool) (v : Var) :
    (v ∈ (collectInCallee active actuals gets toA toG isFinal).actualFinal ↔
      active = true ∧ (∃ d ∈ actuals, v ∈ d) ∧ (isFinal = true ∨ toA v = false)) ∧
    (v ∈ (collectInCallee active actuals gets toA toG isFinal).actualOpt ↔
      active = true ∧ (∃ d ∈ actuals, v ∈ d) ∧ isFinal = false ∧ toA v = true) := by
  cases active
  · simp [collectInCallee]
  · by_cases he : actuals = []
    · subst he
      cases gets <;> simp [collectInCallee, sortMemory]
    · have hne : actuals.isEmpty = false := by cases actuals <;> simp_all
      cases gets <;> cases isFinal <;> simp only [collectInCallee, sortMemory, hne, Bool.not_true, Bool.false_eq_true,
        if_false, List.isEmpty_nil, List.isEmpty_cons, if_true, List.mem_filter, List.mem_flatten] <;> simp

/-- **C151 (partial).** All variables of directives at exits from a callee are copied after a call.

The full statement is that no other variables are copied: it is false, see `after_call_fails`. -/
theorem after_call_partial {active : Bool} {actuals gets : List (List Var)} {toA toG : Var → Bool} {isFinal : Bool}
    (ha : active = true) (hsub : ∀ d ∈ gets, ∀ v ∈ d, ∃ e ∈ actuals, v ∈ e) {v : Var} (hv : ∃ d ∈ gets, v ∈ d) :
    (isFinal = true ∨ toG v = false → v ∈ (collectInCallee active actuals gets toA toG isFinal).getFinal) ∧
    (isFinal = false ∧ toG v = true → v ∈ (collectInCallee active actuals gets toA toG isFinal).getOpt) := by
  obtain ⟨d, hd, hvd⟩ := hv
  have hne : gets.isEmpty = false := by cases gets <;> simp_all
  have := hsub d hd v hvd
  subst ha
  simp only [collectInCallee, sortMemory, hne, Bool.not_true, Bool.false_eq_true, if_false, List.mem_filter,
    List.mem_flatten, Bool.or_eq_true, Bool.and_eq_true, Bool.not_eq_true']
  exact ⟨fun h => ⟨this, h⟩, fun h => ⟨this, h⟩⟩

/-- **C151 (partial).** If directives of a callee are moved to its caller then a call is executed as with a single memory. -/
theorem surround_coherent_partial {c : Ctx} {covers : Var → Loc → Bool} (hk : Keys c) (hs : Sound c covers)
    {actuals gets : List (List Var)} {toA toG : Var → Bool}
    (ha : ∀ v, (∃ d ∈ actuals, v ∈ d) ↔ v ∈ entryVars c) (hg : ∀ v, (∃ d ∈ gets, v ∈ d) ↔ v ∈ exitVars c)
    (hsub : ∀ v ∈ exitVars c, v ∈ entryVars c)
    (ss : List (Step Val)) {mem : Loc → Val} {m : Mach Val} (he : Entry c covers mem m)
    (hkn : ∀ s ∈ ss, Known c covers s) (hp : ∀ s ∈ ss, Plain s) :
    let d := collectInCallee true actuals gets toA toG true
    (around c covers d.actualFinal d.getFinal m ss).2 = (refRun mem ss).2 ∧
      ∀ l, Outer c covers l → (around c covers d.actualFinal d.getFinal m ss).1.hv l = true ∧
        (around c covers d.actualFinal d.getFinal m ss).1.host l = (refRun mem ss).1 l := by
  refine around_coherent hk hs (fun v hl ho => ?_) (fun v hl ho => ?_) ss he hkn hp
  · obtain ⟨d, hd, hv⟩ := hl
    exact ((before_call true true actuals gets toA toG v).1).mpr
      ⟨rfl, (ha v).mpr (List.mem_filter.mpr ⟨List.mem_flatMap.mpr ⟨d, hd, hv⟩, ho⟩), .inl rfl⟩
  · obtain ⟨d, hd, hv⟩ := hl
    refine (after_call_partial rfl (fun d hd v hv => ?_)
      ((hg v).mpr (List.mem_filter.mpr ⟨List.mem_flatMap.mpr ⟨d, hd, hv⟩, ho⟩))).1 (.inl rfl)
    exact (ha v).mpr (hsub v ((hg v).mp ⟨d, hd, hv⟩))

/-! ### Example and counterexamples -/

/-- A variable `0` is an array with elements `0` and `1`, a variable `1` is a scalar with an element `2`. -/
def exCovers (v : Var) (l : Loc) : Bool := (v == 0 && l < 2) || (v == 1 && l == 2)

/-- The array is changed on a device, the scalar is only read there. -/
def exCtx : Ctx := ⟨[⟨10, [0]⟩, ⟨11, [1]⟩], [⟨10, [0]⟩], fun a b => a != b, fun _ => true⟩

/-- A host changes the scalar, a region increases elements by the scalar, a host changes an element of the array and a
region is executed again, the last element is read on a host. -/
def exProgram (ind : Bool) : List (Step Int) :=
  [.instr [{ nodes := [11], read := false, write := true, induction := ind }] [] (fun _ => [(2, 5)]),
   .region [0, 1] [0] [0, 1, 2] (fun vs => [(0, vs[0]! + vs[2]!), (1, vs[1]! + vs[2]!)]),
   .instr [{ nodes := [10], read := false, write := true }] [] (fun _ => [(0, 100)]),
   .instr [{ nodes := [11], read := false, write := true, induction := ind }] [] (fun _ => [(2, 7)]),
   .region [0, 1] [0] [0, 1, 2] (fun vs => [(0, vs[0]! + vs[2]!), (1, vs[1]! + vs[2]!)]),
   .instr [{ nodes := [10], read := true, write := false }] [0, 1] (fun _ => [])]

theorem ex_sound : Sound exCtx exCovers where
  overlap := by
    intro d hd e he v hv w hw l h1 h2
    simp only [exCtx, List.mem_cons, List.not_mem_nil, or_false] at hd he
    subst he
    rcases hd with rfl | rfl
    · rfl
    · simp only [List.mem_singleton] at hv hw
      subst hv hw
      simp only [exCovers] at h1 h2
      simp only [Nat.reduceBEq, Bool.false_and, Bool.true_and, Bool.false_or, Bool.or_false, beq_iff_eq, beq_self_eq_true,
        decide_eq_true_eq] at h1 h2
      subst h1
      exact absurd h2 (by decide)

/-- A device contains an old copy of the array. -/
def exMach : Mach Int := ⟨fun _ => 1, fun _ => 50, fun _ => true, fun l => decide (l < 2)⟩

theorem ex_entry : Entry exCtx exCovers (fun _ => 1) exMach := by
  refine ⟨fun l => ⟨rfl, rfl⟩, fun l h => ⟨0, ⟨⟨10, [0]⟩, by simp [exCtx], by simp⟩, rfl, ?_⟩⟩
  simpa [exCovers, exMach] using h

theorem ex_known (ind : Bool) : ∀ s ∈ exProgram ind, Known exCtx exCovers s := by
  intro s hs
  simp only [exProgram, List.mem_cons, List.not_mem_nil, or_false] at hs
  rcases hs with rfl | rfl | rfl | rfl | rfl | rfl <;>
    simp [Known, Describes, Listed, exCtx, exCovers, inVars]

example : (call exCtx exCovers exMach (exProgram false)).2 = [[], [1, 1, 5], [], [], [100, 6, 7], [107, 13]] := by decide

example : (call exCtx exCovers exMach (exProgram false)).2 = (refRun (fun _ => 1) (exProgram false)).2 := by
  refine (call_coherent_partial (by simp [Keys, exCtx]) ex_sound _ ex_entry (ex_known false) ?_).1
  intro s hs
  simp only [exProgram, List.mem_cons, List.not_mem_nil, or_false] at hs
  rcases hs with rfl | rfl | rfl | rfl | rfl | rfl <;> simp [Plain]

/-- **C150 fails.** If the scalar is an induction variable of another parallel loop which post-dominates writes then its
new value is not copied to a device: the second region uses the old value. -/
theorem induction_fails : Keys exCtx ∧ Sound exCtx exCovers ∧ Entry exCtx exCovers (fun _ => 1) exMach ∧
    (∀ s ∈ exProgram true, Known exCtx exCovers s) ∧
    (call exCtx exCovers exMach (exProgram true)).2 ≠ (refRun (fun _ => 1) (exProgram true)).2 :=
  ⟨by simp [Keys, exCtx], ex_sound, ex_entry, ex_known true, by decide⟩

/-- **C150 fails.** A call which reads and writes an induction variable obtains an old value, because an access is not
processed. -/
theorem induction_read_fails : ∃ (c : Ctx) (m : Mach Int) (ss : List (Step Int)), Keys c ∧ Sound c exCovers ∧
    Entry c exCovers (fun _ => 1) m ∧ (∀ s ∈ ss, Known c exCovers s) ∧
    (call c exCovers m ss).2 ≠ (refRun (fun _ => 1) ss).2 := by
  refine ⟨⟨[⟨11, [1]⟩], [⟨11, [1]⟩], fun a b => a != b, fun _ => true⟩, ⟨fun _ => 1, fun _ => 1, fun _ => true, fun _ => false⟩,
    [.region [1] [1] [2] (fun _ => [(2, 9)]),
     .instr [{ nodes := [11], read := true, write := true, induction := true }] [2] (fun _ => [(2, 0)])],
    by simp [Keys], ⟨?_⟩, ⟨fun l => ⟨rfl, rfl⟩, by simp⟩, ?_, by decide⟩
  · intro d hd e he v hv w hw l h1 h2
    simp only [List.mem_singleton] at hd he
    subst hd he; rfl
  · intro s hs
    simp only [List.mem_cons, List.not_mem_nil, or_false] at hs
    rcases hs with rfl | rfl <;> simp [Known, Describes, Listed, exCovers, inVars]

/-- Variables `0` and `1` are used by a callee, the array is changed. -/
example : collectInCallee true [[0, 1]] [[0], [0]] (· == 1) (fun _ => false) false =
    { actualFinal := [0], actualOpt := [1], getFinal := [0, 1], getOpt := [] } := by decide

example : let d := collectInCallee true [[0, 1]] [[0], [0]] (fun _ => false) (fun _ => false) true
    (around exCtx exCovers d.actualFinal d.getFinal exMach (exProgram false)).2 =
      (refRun (fun _ => 1) (exProgram false)).2 := by
  refine (surround_coherent_partial (by simp [Keys, exCtx]) ex_sound ?_ ?_ ?_ _ ex_entry (ex_known false) ?_).1
  · intro v; simp [entryVars, exCtx]
  · intro v; simp [exitVars, exCtx]
  · intro v; simp [exitVars, entryVars, exCtx]; exact .inl
  · intro s hs
    simp only [exProgram, List.mem_cons, List.not_mem_nil, or_false] at hs
    rcases hs with rfl | rfl | rfl | rfl | rfl | rfl <;> simp [Plain]

/-- **C151 fails.** A variable which is not changed by a callee on a device is copied from the device after a call. -/
theorem after_call_fails : ∃ (actuals gets : List (List Var)) (v : Var), (∀ d ∈ gets, ∀ v ∈ d, ∃ e ∈ actuals, v ∈ e) ∧
    v ∈ (collectInCallee true actuals gets (fun _ => false) (fun _ => false) true).getFinal ∧ ¬ ∃ d ∈ gets, v ∈ d :=
  ⟨[[0, 1]], [[0]], 1, by decide, by decide, by decide⟩

end Tsar.DvmhCoherent
