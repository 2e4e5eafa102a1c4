import Verif.Proof.Regions
import Verif.Proof.Rebuild
import Verif.Props.AccPot
import Verif.Props.State

/-!
# C71: the parallel parts of the library have no data races

For every way of splitting the ranges into blocks and every interleaving of the tasks, the parallel loops and task groups access elements within the bounds of their arrays, without races, and always give the
result of the sequential functions of the model (`rawCodes`, `applyIsort`, `permToInv`, `accPot`, ...).
-/
namespace Rakau
open Par Spec

/-- C71: programs that meet the requirements do run to an end, and their outcome is unique. -/
theorem C71_unique {L V : Type} [DecidableEq L] {p : P L V} {m : L → V} {B W B' W' : Set L} {o o' : Option (L → V)} (h : Schedules p m B W o) (h' : Schedules p m B' W' o') :
    (∃ k p' m', Exec k p m p' m' ∧ p'.steps m' = []) ∧ o = o' := by
  have hex : ∃ k p' m', Exec k p m p' m' ∧ p'.steps m' = [] := by
    obtain ⟨n, hn⟩ := h.ends
    have snoc : ∀ {k : Nat} {p q r : P L V} {m m' m'' : L → V} {a : Access L}, Exec k p m q m' → (a, m'', r) ∈ q.steps m' → Exec (k + 1) p m r m'' := by
      intro k p q r m m' m'' a he
      induction he with
      | refl p m => exact fun hs => .step hs (.refl _ _)
      | step hs _ ih => exact fun hs' => .step hs (ih hs')
    by_contra hc
    have go : ∀ k, ∃ p' m', Exec k p m p' m' := by
      intro k
      induction k with
      | zero => exact ⟨p, m, .refl _ _⟩
      | succ k ih =>
        obtain ⟨p', m', he⟩ := ih
        cases hs : p'.steps m' with
        | nil => exact absurd ⟨k, p', m', he, hs⟩ hc
        | cons x l =>
          obtain ⟨a, y, q⟩ := x
          exact ⟨q, y, snoc he (by rw [hs]; exact List.mem_cons_self)⟩
    obtain ⟨p', m', he⟩ := go (n + 1)
    have := hn he
    omega
  refine ⟨hex, ?_⟩
  obtain ⟨k, p', m', he, hs⟩ := hex
  have a := h.outcome he hs
  have b := h'.outcome he hs
  cases o with
  | none =>
    cases o' with
    | none => rfl
    | some r => exact absurd a (h'.quiet he rfl)
  | some r =>
    cases o' with
    | none => exact absurd b (h.quiet he rfl)
    | some r' => rw [← a.2, ← b.2]

section Any
variable {env : Env} {R : Type} {m : Loc → Cell env R} {n : Nat}

theorem coords_read {parts : List (List env.F)} (hd : parts.length = env.d + 1) (hl : ∀ v ∈ parts, v.length = n) (hp : HasParts m parts) {i : Nat} (hi : i < n) :
    coordsAt env.d parts i = some ((List.range env.d).map fun j => (m (.parts j, i)).coord) := by
  unfold coordsAt
  rw [mapM_some_iff, List.forall₂_iff_get]
  refine ⟨by simp [hd], ?_⟩
  intro j h1 h2
  simp only [List.length_take, hd, List.length_map, List.length_range] at h1 h2
  have hj : j < parts.length := by omega
  have hi' : i < parts[j].length := by rw [hl _ (List.getElem_mem hj)]; exact hi
  have e := hp j hj i (by simpa using hi')
  simp only [List.get_eq_getElem, List.getElem_take, List.getElem_map, List.getElem_range]
  rw [e, List.getElem?_eq_getElem hi', List.getElem_map]
  rfl

/-- C71: the Morton codes. All blocks, all interleavings: no race, no access out of bounds, and at the end the codes of the model are in `m_codes`; or some task throws, if some coordinate is not valid. -/
theorem C71_encode {parts : List (List env.F)} (hd : parts.length = env.d + 1) (hl : ∀ v ∈ parts, v.length = n) (hp : HasParts m parts) (box : env.F) {bl : List (List Nat)} (hb : Split n bl) :
    match rawCodes env box parts n with
    | .ok raw => ∃ r, Schedules (encodeP env box bl) m (cells n (.codes :: family .parts env.d)) (cells n [.codes]) (some r) ∧ Has r .codes (raw.map .num)
    | .error _ => Schedules (encodeP env box bl) m (cells n (.codes :: family .parts env.d)) (cells n [.codes]) none := by
  have key : ∀ g : Loc → Cell env R, _ → _ → _ := fun g => encode_does (m := m) (g := g) (n := n) hb (box := box) (code := fun i => env.code box ((List.range env.d).map fun j => (m (.parts j, i)).coord)) (fun _ _ => rfl)
  have code : ∀ i < n, (do env.code box (← ofUB (coordsAt env.d parts i))) = env.code box ((List.range env.d).map fun j => (m (.parts j, i)).coord) := by
    intro i hi
    rw [coords_read hd hl hp hi]
    rfl
  have D := key (fun l => match env.code box ((List.range env.d).map fun j => (m (.parts j, l.2)).coord) with
    | .ok c => .num c
    | .error _ => m l) (fun i hi c hc => by simp only [hc]) (fun i hi e he => by simp only [he])
  cases hr : rawCodes env box parts n with
  | ok raw =>
    obtain ⟨h1, h2⟩ := rawCodes_spec.1 hr
    have ok : ∀ i (h : i < raw.length), env.code box ((List.range env.d).map fun j => (m (.parts j, i)).coord) = .ok raw[i] := fun i h => by rw [← code i (by omega)]; exact h2 i h
    obtain ⟨r, hs, hg⟩ := (D.congr (bad' := False) (fun _ _ => rfl) (fun _ _ => rfl) (iff_of_false id (by rintro ⟨i, hi, e, he⟩; rw [ok i (by omega)] at he; cases he))).ok (fun _ h => h)
    refine ⟨r, hs, fun i hi => ?_⟩
    simp only [List.length_map] at hi
    rw [hg (.codes, i) ⟨by simp, by simp only; omega⟩]
    simp only [ok i hi, List.getElem_map]
  | error e =>
    obtain ⟨i, hi, he⟩ := mapM_error hr
    have hi := List.mem_range.1 hi
    exact D.error ⟨i, hi, e, by rw [← code i hi]; exact he⟩ (fun _ h => h)

/-- C71: initialisation of a permutation. -/
theorem C71_iota {bl : List (List Nat)} (hb : Split n bl) (dst : Name) :
    ∃ r, Schedules (iotaP dst bl) m (cells n [dst]) (cells n [dst]) (some r) ∧ Has r dst ((List.range n).map .num) := by
  obtain ⟨r, hs, hg⟩ := (iota_does (m := m) (g := fun l => .num l.2) hb (dst := dst) (fun _ _ => rfl)).ok (fun _ h => h)
  refine ⟨r, hs, fun i hi => ?_⟩
  simp only [List.length_map, List.length_range] at hi
  rw [hg (dst, i) ⟨by simp, hi⟩]
  simp

/-- C71: the copy of the input. -/
theorem C71_input {parts : List (List env.F)} (hd : parts.length = env.d + 1) (hl : ∀ v ∈ parts, v.length = n) (hin : ∀ j (h : j < parts.length), Has m (.input j) (parts[j].map .val))
    {bl : Nat → List (List Nat)} (hb : ∀ j, Split n (bl j)) :
    ∃ r, Schedules (inputP env bl) m (cells n (family .input (env.d + 1) ++ family .parts (env.d + 1))) (cells n (family .parts (env.d + 1))) (some r) ∧ HasParts r parts := by
  have key := Does.loop (F := fun j => cells n [.input j, .parts j]) (W := fun j => cells n [.parts j]) (m := m) (g := fun l => match l.1 with
      | .parts j => m (.input j, l.2)
      | _ => m l) (bad := fun _ => False) (body := fun j => copyP (.input j) (.parts j) (bl j)) (is := List.range (env.d + 1)) (apart_of List.nodup_range ?_)
    (fun j _ => copy_does (hb j) (by simp) fun _ _ => rfl)
  · have key := (key.mono (F' := cells n (family .input (env.d + 1) ++ family .parts (env.d + 1))) (W' := cells n (family .parts (env.d + 1))) (by
      rintro l ⟨j, hj, h1, h2⟩
      simp only [List.mem_cons, List.not_mem_nil, or_false] at h1
      rcases h1 with h | h <;> exact ⟨by simp_all [family], h2⟩) (by
      rintro l ⟨j, hj, h1, h2⟩
      exact ⟨by simp_all [family], h2⟩) (by
      rintro l ⟨h1, h2⟩
      exact ⟨List.mem_append_right _ h1, h2⟩) (by
      rintro l ⟨h1, h2⟩ hn
      simp only [family, List.mem_map] at h1
      obtain ⟨j, hj, e⟩ := h1
      exact absurd ⟨j, hj, by simp [← e], h2⟩ hn)).congr (bad' := False) (fun _ _ => rfl) (fun _ _ => rfl) (by simp)
    obtain ⟨r, hs, hg⟩ := key.ok (fun _ h => h)
    refine ⟨r, hs, fun j hj i hi => ?_⟩
    simp only [List.length_map] at hi
    have := hl _ (List.getElem_mem hj)
    rw [hg (.parts j, i) ⟨by simp [family]; omega, by simp only; omega⟩]
    exact hin j hj i (by simpa using hi)
  · rintro i _ j _ hij l ⟨h1, _⟩ ⟨h2, _⟩
    simp_all

/-- What is known of a permutation in memory. -/
theorem perm_read {srt : List Nat} {a : Name} (hs : srt.Perm (List.range n)) (h : Has m a (srt.map .num)) : (∀ i (hi : i < srt.length), (m (a, i)).idx = srt[i]) ∧ (∀ i < n, (m (a, i)).idx < n) ∧
    (∀ i < n, ∀ j < n, (m (a, i)).idx = (m (a, j)).idx → i = j) ∧ ∀ k < n, ∃ i < n, (m (a, i)).idx = k := by
  have hl := perm_length hs
  have e : ∀ i (hi : i < srt.length), (m (a, i)).idx = srt[i] := by
    intro i hi
    rw [h i (by simpa using hi), List.getElem_map]
    rfl
  refine ⟨e, fun i hi => ?_, fun i hi j hj hij => ?_, fun k hk => ?_⟩
  · rw [e i (by omega)]; exact perm_lt hs (List.getElem_mem _)
  · rw [e i (by omega), e j (by omega)] at hij
    exact (perm_nodup hs).getElem_inj_iff.1 hij
  · obtain ⟨i, hi, rfl⟩ := List.getElem_of_mem (hs.mem_iff.2 (List.mem_range.2 hk))
    exact ⟨i, by omega, e i hi⟩

theorem getD_eq {α : Type} {l : List α} {i : Nat} (h : i < l.length) (d : α) : l.getD i d = l[i] := by
  rw [List.getD_eq_getElem?_getD, List.getElem?_eq_getElem h, Option.getD_some]

/-- Elements of a list reordered by `srt`. -/
theorem isort_get {α : Type} {v w : List α} {srt : List Nat} (h : applyIsort v srt = some w) {i : Nat} (hi : i < srt.length) (d : α) (hv : srt[i] < v.length) : w.getD i d = v[srt[i]] := by
  obtain ⟨h1, h2⟩ := applyIsort_spec h
  have := h2 i hi
  rw [List.getElem?_eq_getElem hv] at this
  rw [List.getD_eq_getElem?_getD, this]
  rfl

theorem has_num {r : Loc → Cell env R} {a : Name} {xs : List Nat} (h : ∀ i < xs.length, r (a, i) = .num (xs.getD i 0)) : Has r a (xs.map .num) := by
  intro i hi
  simp only [List.length_map] at hi
  rw [h i hi, getD_eq hi, List.getElem_map]

theorem has_val {r : Loc → Cell env R} {a : Name} {xs : List env.F} (h : ∀ i < xs.length, r (a, i) = .val (xs.getD i env.zero)) : Has r a (xs.map .val) := by
  intro i hi
  simp only [List.length_map] at hi
  rw [h i hi, getD_eq hi, List.getElem_map]

/-- C71: the tasks after the sort in a construction. Every schedule leaves the data of the new tree in memory. -/
theorem C71_construct {inp : Input env} {s : TS env} (h : Construct inp (.ok s)) (hd : inp.parts.length = env.d + 1) :
    ∃ raw, rawCodes env s.box inp.parts s.n = .ok raw ∧ ∀ m : Loc → Cell env R, HasParts m inp.parts → Has m .codes (raw.map .num) → Has m .perm (s.perm.map .num) →
      ∀ bl : Nat → List (List Nat), (∀ t, Split s.n (bl t)) →
        ∃ r, Schedules (permuteP env bl) m (cells s.n (permuteIn env.d ++ permuteOut env.d)) (cells s.n (permuteOut env.d)) (some r) ∧ Has r .newCodes (s.codes.map .num) ∧
          Has r .invPerm (s.invPerm.map .num) ∧ Has r .lastPerm (s.lastPerm.map .num) ∧ ∀ j (h : j < s.parts.length), Has r (.newParts j) (s.parts[j].map .val) := by
  have I := inv_construct hd h
  obtain ⟨raw, ord, split, hc, hbx, hw, hs, ho, ha, hp, hi, hbd, hpr, hlp, _⟩ := construct_ok h
  have hlen := check_lengths hc
  obtain ⟨hrl, _⟩ := rawCodes_spec.1 hw
  obtain ⟨q1, q2, q3⟩ := mapM_isort_spec hp
  have hsl := perm_length I.perm
  have hn : (inp.parts.headD []).length = s.n := by rw [← hrl, ← hsl, hs.1.length_eq]; simp
  rw [hn] at hw hrl hlen
  refine ⟨raw, hw, fun m m1 m2 m3 bl hb => ?_⟩
  obtain ⟨p1, p2, p3, p4⟩ := perm_read I.perm m3
  have hcl := (applyIsort_spec ha).1
  obtain ⟨F, hF, D⟩ := permute_does (m := m) (g := fun l => match l.1 with
    | .newCodes => .num (s.codes.getD l.2 0)
    | .invPerm => .num (s.invPerm.getD l.2 0)
    | .lastPerm => .num (s.perm.getD l.2 0)
    | .newParts j => .val ((s.parts.getD j []).getD l.2 env.zero)
    | _ => m l) hb p2 p3 p4 (by
      intro i hi
      have hi' : i < s.perm.length := by omega
      have hlt := perm_lt I.perm (List.getElem_mem hi')
      simp only
      rw [isort_get ha hi' 0 (by omega), p1 i hi', m2 _ (by simp; omega), List.getElem_map]) (by
      intro i hi
      have hi' : i < s.perm.length := by omega
      simp only
      rw [p1 i hi']
      have e := I.inv i s.perm[i] (List.getElem?_eq_getElem hi')
      rw [List.getD_eq_getElem?_getD, e]
      rfl) (by
      intro i hi
      have hi' : i < s.perm.length := by omega
      simp only
      rw [getD_eq hi', m3 i (by simpa using hi'), List.getElem_map]) (by
      intro j hj i hi
      have hi' : i < s.perm.length := by omega
      have hlt := perm_lt I.perm (List.getElem_mem hi')
      have hj1 : j < inp.parts.length := by omega
      have hj2 : j < s.parts.length := by omega
      have hv : s.perm[i] < inp.parts[j].length := by rw [hlen _ (List.getElem_mem hj1)]; exact hlt
      simp only
      rw [p1 i hi', m1 j hj1 _ (by simpa using hv), List.getElem_map, getD_eq hj2, List.getD_eq_getElem?_getD, q3 j hj1 hj2 i hi', List.getElem?_eq_getElem hv]
      rfl)
  obtain ⟨r, hs, hg⟩ := D.ok hF
  refine ⟨r, hs, has_num fun i hi => ?_, has_num fun i hi => ?_, has_num fun i hi => ?_, fun j hj => has_val fun i hi => ?_⟩
  · rw [hg _ ⟨by simp [permuteOut], by simp only; omega⟩]
  · rw [hg _ ⟨by simp [permuteOut], by have := I.invLen; simp only; omega⟩]
  · rw [hlp] at hi ⊢
    rw [hg _ ⟨by simp [permuteOut], by simp only; omega⟩]
  · have := I.arr
    have := I.len _ (List.getElem_mem hj)
    rw [hg _ ⟨by simp [permuteOut, family]; omega, by simp only; omega⟩]
    simp only
    rw [getD_eq hj]

/-- C71: the tasks after the sort in `sync`, called by `update_particles_*` after the user has changed the particles. Every schedule leaves the data of the updated tree in memory. -/
theorem C71_sync {s s' : TS env} (h : Reach env s) {ordered : Bool} {f : Prog env.F} (hu : UpdateParticles s ordered f (.ok s')) :
    ∃ parts raw, f.run (s.tr ordered) s.parts = .ok parts ∧ rawCodes env s'.box parts s.n = .ok raw ∧ ∀ m : Loc → Cell env R, HasParts m parts → Has m .codes (raw.map .num) → Has m .perm (s.perm.map .num) → Has m .lastPerm (s'.lastPerm.map .num) →
      ∀ bl : Nat → List (List Nat), (∀ t, Split s.n (bl t)) →
        ∃ r, Schedules (syncP env bl) m (cells s.n (syncIn env.d ++ syncOut env.d)) (cells s.n (syncOut env.d)) (some r) ∧ Has r .newCodes (s'.codes.map .num) ∧
          Has r .newPerm (s'.perm.map .num) ∧ Has r .invPerm (s'.invPerm.map .num) ∧ ∀ j (h : j < s'.parts.length), Has r (.newParts j) (s'.parts[j].map .val) := by
  obtain ⟨parts, hf, hsy⟩ : ∃ parts, f.run (s.tr ordered) s.parts = .ok parts ∧ Sync { s with parts := parts } (.ok s') := by
    generalize hr : Out.ok s' = r at hu
    cases hu with
    | callback e he => cases e <;> cases hr
    | sync parts r hf hsy =>
      cases r with
      | error e => cases e <;> cases hr
      | ok t => cases hr; exact ⟨parts, hf, hsy⟩
  have J := preSync_of_run (reach_inv h) hf
  obtain ⟨I, hn⟩ := inv_sync J hsy
  have hsn : ({ s with parts := parts } : TS env).n = s.n := (perm_length J.perm).symm.trans (perm_length (reach_inv h).perm)
  rw [hsn] at hn
  obtain ⟨raw, ord, split, hbx, hw, hs, ho, ha, hp, hq, hi, _⟩ := sync_ok hsy
  rw [hsn] at hw
  obtain ⟨hrl, _⟩ := rawCodes_spec.1 hw
  obtain ⟨q1, q2, q3⟩ := mapM_isort_spec hp
  have hP := I.perm
  have hL := I.lastPerm
  rw [hn] at hP hL
  have hsl := perm_length hL
  have hpl := perm_length hP
  have hp0 := J.perm
  rw [hsn] at hp0
  have hp0l := perm_length hp0
  have hcl := (applyIsort_spec ha).1
  refine ⟨parts, raw, hf, hw, fun m m1 m2 m3 m4 bl hb => ?_⟩
  obtain ⟨p1, p2, p3, p4⟩ := perm_read hL m4
  set g : Loc → Cell env R := fun l => match l.1 with
    | .newCodes => .num (s'.codes.getD l.2 0)
    | .invPerm => .num (s'.invPerm.getD l.2 0)
    | .newPerm => .num (s'.perm.getD l.2 0)
    | .newParts j => .val ((s'.parts.getD j []).getD l.2 env.zero)
    | _ => m l with hgd
  have gp : Has g .newPerm (s'.perm.map .num) := has_num fun i hi => rfl
  obtain ⟨n1, n2, n3, n4⟩ := perm_read hP gp
  obtain ⟨F, hF, D⟩ := sync_does (m := m) (g := g) hb p2 (by
      intro i hi
      have hi' : i < s'.lastPerm.length := by omega
      have hlt := perm_lt hL (List.getElem_mem hi')
      simp only [hgd]
      rw [isort_get ha hi' 0 (by omega), p1 i hi', m2 _ (by simp; omega), List.getElem_map]) (by
      intro i hi
      have hi' : i < s'.lastPerm.length := by omega
      have hlt := perm_lt hL (List.getElem_mem hi')
      simp only [hgd]
      rw [isort_get hq hi' 0 (by simp only at hp0l ⊢; omega), p1 i hi', m3 _ (by simp only [List.length_map] at hp0l ⊢; omega), List.getElem_map]) n2 n3 n4 (by
      intro i hi
      have hi' : i < s'.perm.length := by omega
      rw [n1 i hi']
      have e := I.inv i s'.perm[i] (List.getElem?_eq_getElem hi')
      simp only [hgd]
      rw [List.getD_eq_getElem?_getD, e]
      rfl) (by
      intro j hj i hi
      have hi' : i < s'.lastPerm.length := by omega
      have hlt := perm_lt hL (List.getElem_mem hi')
      have hj2 : j < s'.parts.length := by have := I.arr; omega
      have hj1 : j < parts.length := by have := J.arr; simp only at this; omega
      have hv : s'.lastPerm[i] < parts[j].length := by have := J.len _ (List.getElem_mem hj1); rw [hsn] at this; omega
      simp only [hgd]
      rw [p1 i hi', m1 j hj1 _ (by simpa using hv), List.getElem_map, getD_eq hj2, List.getD_eq_getElem?_getD, q3 j hj1 hj2 i hi', List.getElem?_eq_getElem hv]
      rfl)
  obtain ⟨r, hs, hg⟩ := D.ok hF
  refine ⟨r, hs, has_num fun i hi => ?_, has_num fun i hi => ?_, has_num fun i hi => ?_, fun j hj => has_val fun i hi => ?_⟩
  · rw [hg _ ⟨by simp [syncOut], by simp only; omega⟩]
  · rw [hg _ ⟨by simp [syncOut], by simp only; omega⟩]
  · rw [hg _ ⟨by simp [syncOut], by have := I.invLen; simp only; omega⟩]
  · have := I.arr
    have := I.len _ (List.getElem_mem hj)
    rw [hg _ ⟨by simp [syncOut, family]; omega, by simp only; omega⟩]
    simp only [hgd]
    rw [getD_eq hj]

/-- C71: the node properties after an update of the masses. -/
theorem C71_props {parts : List (List env.F)} (hd : parts.length = env.d + 1) (hl : ∀ v ∈ parts, v.length = n) (hp : HasParts m parts) {tree : List Node} (ht : Has m .tree (tree.map .node)) (box : env.F)
    {bl : List (List Nat)} (hb : Split tree.length bl) :
    match tree.mapM fun nd => env.props box nd parts with
    | .ok props => ∃ r, Schedules (propsP env box n bl) m (cells n (family .parts (env.d + 1)) ∪ cells tree.length [.tree, .props]) (cells tree.length [.props]) (some r) ∧ Has r .props (props.map .props)
    | .error _ => Schedules (propsP env box n bl) m (cells n (family .parts (env.d + 1)) ∪ cells tree.length [.tree, .props]) (cells tree.length [.props]) none := by
  have D := props_does (m := m) (n := n) (box := box) (N := tree.length) hb hd hl hp ht rfl (g := fun l => match tree[l.2]? with
    | none => m l
    | some nd => match env.props box nd parts with
      | .ok p => .props p
      | .error _ => m l) (fun i h p hp => by simp only [List.getElem?_eq_getElem h, hp]) (fun i h p hp => by simp only [List.getElem?_eq_getElem h, hp])
  have hB : ({l | l ∈ partLocs env.d n} ∪ cells tree.length [.tree, .props] : Set Loc) ⊆ cells n (family .parts (env.d + 1)) ∪ cells tree.length [.tree, .props] := by
    rintro l (h | h)
    · obtain ⟨j, h1, h2, h3⟩ := mem_partLocs.1 h
      exact .inl ⟨by simp [family, h2]; omega, h3⟩
    · exact .inr h
  cases hr : tree.mapM fun nd => env.props box nd parts with
  | ok props =>
    obtain ⟨h1, h2⟩ := forall₂_getElem (mapM_ok_iff.1 hr)
    obtain ⟨r, hs, hg⟩ := (D.congr (bad' := False) (fun _ _ => rfl) (fun _ _ => rfl) (iff_of_false id (by
      rintro ⟨i, hi, nd, e, h3, h4⟩
      rw [List.getElem?_eq_getElem hi, Option.some.injEq] at h3
      subst h3
      rw [h2 i hi (by omega)] at h4
      cases h4))).ok hB
    refine ⟨r, hs, fun i hi => ?_⟩
    simp only [List.length_map] at hi
    have hi' : i < tree.length := by omega
    rw [hg (.props, i) ⟨by simp, hi'⟩]
    simp only [List.getElem?_eq_getElem hi', h2 i hi' hi, List.getElem_map]
  | error e =>
    obtain ⟨nd, hnd, he⟩ := mapM_error hr
    obtain ⟨i, hi, rfl⟩ := List.getElem_of_mem hnd
    exact D.error ⟨i, hi, _, e, List.getElem?_eq_getElem hi, he⟩ hB

theorem flatten_get {α : Type} : ∀ {ts : List (List α)} {i k : Nat} (h : i < ts.length) (hk : k < ts[i].length), ts.flatten[((ts.map List.length).take i).sum + k]? = some ts[i][k]
  | t :: ts, 0, k, _, hk => by
    simp only [List.getElem_cons_zero] at hk
    simp only [List.take_zero, List.sum_nil, Nat.zero_add, List.flatten_cons, List.getElem_cons_zero]
    rw [List.getElem?_append_left hk, List.getElem?_eq_getElem hk]
  | t :: ts, i + 1, k, h, hk => by
    simp only [List.getElem_cons_succ, List.length_cons] at hk h
    simp only [List.map_cons, List.take_succ_cons, List.sum_cons, List.flatten_cons, List.getElem_cons_succ]
    rw [List.getElem?_append_right (by omega), show t.length + ((ts.map List.length).take i).sum + k - t.length = ((ts.map List.length).take i).sum + k by omega]
    exact flatten_get (by omega) hk

/-- C71: the copies of the partial trees and of the lists of critical nodes, which run at the same time. In every schedule the trees end up one after the other behind the root, as in `IsBuild`. -/
theorem C71_merge {trees : List (List Node)} {crits : List (List CNode)} {root : Node} (m0 : m (.tree, 0) = .node root) (m1 : ∀ i (h : i < trees.length), Has m (.piece i) (trees[i].map .node))
    (m2 : ∀ i (h : i < crits.length), Has m (.critPiece i) (crits[i].map .crit)) {ob ob' : List (List Nat)} {bl bl' : Nat → List (List Nat)} (ho : Split trees.length ob) (ho' : Split crits.length ob')
    (hb : ∀ i (h : i < trees.length), Split trees[i].length (bl i)) (hb' : ∀ i (h : i < crits.length), Split crits[i].length (bl' i)) :
    ∃ r, Schedules (mergesP (trees.map List.length) (crits.map List.length) ob ob' bl bl') m
        (pieceLocs .piece (trees.map List.length) ∪ pieceLocs .critPiece (crits.map List.length) ∪ cells (1 + trees.flatten.length) [.tree] ∪ cells crits.flatten.length [.crit])
        (destLocs .tree 1 (trees.map List.length) ∪ destLocs .crit 0 (crits.map List.length)) (some r) ∧
      Has r .tree ((root :: trees.flatten).map .node) ∧ Has r .crit (crits.flatten.map .crit) := by
  set g : Loc → Cell env R := fun l => match l.1 with
    | .tree => match trees.flatten[l.2 - 1]? with
      | some nd => .node nd
      | none => m l
    | .crit => match crits.flatten[l.2]? with
      | some c => .crit c
      | none => m l
    | _ => m l with hgd
  have D1 := merge_does (m := m) (g := g) (piece := .piece) (dst := .tree) (start := 1) (lens := trees.map List.length) (ob := ob) (bl := bl) (by simp) (by simpa [Split] using ho)
    (fun i h => by simpa [Split] using hb i (by simpa using h)) (by
      intro i h k hk
      have h' : i < trees.length := by simpa using h
      simp only [List.getElem_map] at hk
      simp only [hgd]
      rw [show 1 + ((trees.map List.length).take i).sum + k - 1 = ((trees.map List.length).take i).sum + k by omega, flatten_get h' hk, m1 i h' k (by simpa using hk)]
      simp)
  have D2 := merge_does (m := m) (g := g) (piece := .critPiece) (dst := .crit) (start := 0) (lens := crits.map List.length) (ob := ob') (bl := bl') (by simp) (by simpa [Split] using ho')
    (fun i h => by simpa [Split] using hb' i (by simpa using h)) (by
      intro i h k hk
      have h' : i < crits.length := by simpa using h
      simp only [List.getElem_map] at hk
      simp only [hgd]
      rw [Nat.zero_add, flatten_get h' hk, m2 i h' k (by simpa using hk)]
      simp)
  have hl1 : trees.flatten.length = (trees.map List.length).sum := List.length_flatten
  have hl2 : crits.flatten.length = (crits.map List.length).sum := List.length_flatten
  have D := (Does.par D1 D2 (by
    rintro ⟨a, x⟩ ⟨rfl, _, _⟩ (⟨i, _, h, _⟩ | ⟨h, _⟩) <;> cases h) (by
    rintro ⟨a, x⟩ ⟨rfl, _, _⟩ (⟨i, _, h, _⟩ | ⟨h, _⟩) <;> cases h)).congr (bad' := False) (fun _ _ => rfl) (fun _ _ => rfl) (by simp)
  obtain ⟨r, hs, hg, hg'⟩ := D.ok' (B := pieceLocs .piece (trees.map List.length) ∪ pieceLocs .critPiece (crits.map List.length) ∪ cells (1 + trees.flatten.length) [.tree] ∪ cells crits.flatten.length [.crit]) (by
    rintro l ((h | ⟨h1, h2, h3⟩) | (h | ⟨h1, h2, h3⟩))
    · exact .inl (.inl (.inl h))
    · exact .inl (.inr ⟨by simp [h1], by omega⟩)
    · exact .inl (.inl (.inr h))
    · exact .inr ⟨by simp [h1], by omega⟩)
  refine ⟨r, hs, fun i hi => ?_, fun i hi => ?_⟩
  · simp only [List.length_map, List.length_cons] at hi
    rcases Nat.eq_zero_or_pos i with rfl | hp
    · rw [hg' (.tree, 0) (by rintro (⟨_, h, _⟩ | ⟨h, _⟩) <;> simp at h)]
      exact m0
    · obtain ⟨i, rfl⟩ : ∃ k, i = k + 1 := ⟨i - 1, by omega⟩
      rw [hg _ (.inl ⟨rfl, by simp only; omega, by simp only; omega⟩)]
      simp only [hgd, Nat.add_sub_cancel, List.getElem?_eq_getElem (show i < trees.flatten.length by omega), List.map_cons, List.getElem_cons_succ, List.getElem_map]
  · simp only [List.length_map] at hi
    rw [hg _ (.inr ⟨rfl, by simp only; omega, by simp only; omega⟩)]
    simp only [hgd, List.getElem?_eq_getElem hi, List.getElem_map]

end Any
section Forces
variable {K : Type} [Field K] [LinearOrder K] [IsStrictOrderedRing K] [FloorRing K] {A : Arith K} {simd : Option (Simd K)} {mac : Mac} {w d : Nat} {s : TS (rakauEnv A simd mac w d)}
  (hS : SimdPos simd) (hs : Supported w d) (h : Reach _ s) (hz : s.n * cbits w d < 2 ^ 64)
include hS hs h hz

/-- C71: the computation of accelerations and potentials on the CPU. For every schedule of the critical nodes, the output is what the functions of the library return (`accPot`, in which the critical nodes are
processed in any given order), and the tree is not written to. -/
theorem C71_forces {rsqrt : Option (Fl K → Fl K)} {over : Overshift} (ho : over.Small) (hr : s.n + (⟨A, simd, rsqrt⟩ : Hw K).pad < 2 ^ 64)
    (Q : Quant) {theta G eps mv eps2 : Fl K} {split : List (Fl K)} (hp : checkParams A mac theta G eps = .ok (mv, eps2)) (hsp : checkSplit split = .ok ())
    (hpad : (s.force rsqrt over Q mv G eps2).padCoord.isFinite = true) (ordered : Bool) {out : List (Res K)} (hout : out.length = s.n) :
    ∃ out', (∀ order : List Nat, order.Perm (List.range s.crit.length) → s.accPot rsqrt over Q ordered theta G eps split order out = .ok out') ∧
      ∀ m : Loc → Cell (rakauEnv A simd mac w d) (Res K), HasParts m s.parts → Has m .tree (s.tree.map .node) → Has m .props (s.props.map .props) → Has m .crit (s.crit.map .crit) →
        Has m .perm (s.perm.map .num) → ∀ bl : List (List Nat), Split s.crit.length bl →
          ∃ r, Schedules (forceP (s.force rsqrt over Q mv G eps2) s.n s.tree.length ordered bl) m
              (cells s.n (.perm :: .out :: family .parts (d + 1)) ∪ cells s.tree.length [.tree, .props] ∪ cells s.crit.length [.crit]) (cells s.n [.out]) (some r) ∧
            Has r .out (out'.map .res) := by
  have I := reach_inv h
  obtain ⟨val, v1, v2⟩ := C27_outputs hS hs h hz ho hr Q hp hsp hpad
  obtain ⟨h1, h2⟩ := crit_tiling (rakauEnv_ok A simd mac hs) h hz
  obtain ⟨π, ρ, hix, hρ, hρn, _⟩ := reach_positions h ordered
  obtain ⟨out', _, o2, o3⟩ := v2 ordered (List.range s.crit.length) out (List.Perm.refl _) hout
  have hval : ∀ k < s.n, out'[π k]? = some (val k) := by
    intro k hk
    obtain ⟨i, e1, e2⟩ := o3 k hk
    rw [(hix k hk).1, Option.some.injEq] at e1
    rw [e1]; exact e2
  refine ⟨out', fun order hord => ?_, fun m m1 m2 m3 m4 m5 bl hb => ?_⟩
  · obtain ⟨out'', q1, q2, q3⟩ := v2 ordered order out hord hout
    rw [q1]
    congr 1
    apply List.ext_getElem?
    intro i
    by_cases hi : i < s.n
    · obtain ⟨i', e1, e2⟩ := q3 (ρ i) (hρn i hi)
      rw [(hix _ (hρn i hi)).1, Option.some.injEq, hρ i hi] at e1
      subst e1
      rw [e2]
      have := hval _ (hρn i hi)
      rw [hρ i hi] at this
      exact this.symm
    · rw [List.getElem?_eq_none (by omega), List.getElem?_eq_none (by omega)]
  · have hpl : s.props.length = s.tree.length := (forall₂_getElem (mapM_ok_iff.1 I.props)).1.symm
    have hread : (forceLocs d s.n s.tree.length).map m = (s.parts.flatten.map .val ++ s.tree.map .node) ++ s.props.map .props := by
      unfold forceLocs
      rw [List.map_append, List.map_append, partLocs_map I.arr I.len m1, has_map m2 (by simp), has_map m3 (by simp [hpl])]
    have hforce : (s.force rsqrt over Q mv G eps2).reading s.n ((forceLocs d s.n s.tree.length).map m) = s.force rsqrt over Q mv G eps2 := by
      unfold Force.reading
      rw [hread]
      have e1 := partsOf_vals (env := rakauEnv A simd mac w d) (R := Res K) I.arr I.len (s.tree.map .node ++ s.props.map .props) (by
        intro v hv
        simp only [List.mem_append, List.mem_map] at hv
        rcases hv with ⟨_, _, rfl⟩ | ⟨_, _, rfl⟩ <;> rfl)
      have e2 := filterMap_kind (Cell.node? (env := rakauEnv A simd mac w d) (R := Res K)) .node (fun _ => rfl) (s.parts.flatten.map .val) (s.props.map .props) s.tree
        (by intro v hv; obtain ⟨_, _, rfl⟩ := List.mem_map.1 hv; rfl) (by intro v hv; obtain ⟨_, _, rfl⟩ := List.mem_map.1 hv; rfl)
      have e3 := filterMap_kind (Cell.props? (env := rakauEnv A simd mac w d) (R := Res K)) .props (fun _ => rfl) (s.parts.flatten.map .val ++ s.tree.map .node) [] s.props
        (by
          intro v hv
          simp only [List.mem_append, List.mem_map] at hv
          rcases hv with ⟨_, _, rfl⟩ | ⟨_, _, rfl⟩ <;> rfl) (by simp)
      rw [List.append_nil] at e3
      rw [← List.append_assoc] at e1
      rw [e1, show nodesOf _ = s.tree from e2, show npropsOf _ = s.props from e3]
      rfl
    have hm5 : ∀ k < s.n, if ordered then (m (.perm, k)).idx = π k else π k = k := by
      intro k hk
      have e := (hix k hk).1
      cases ordered with
      | false => simpa [eq_comm] using e
      | true =>
        have hk' : k < s.perm.length := by rw [perm_length I.perm]; exact hk
        simp only [if_true] at e ⊢
        rw [m5 k (by simpa using hk'), List.getElem_map]
        rw [List.getElem?_eq_getElem hk', Option.some.injEq] at e
        exact e
    have D := crit_does (m := m) (cs := s.crit) (bl := bl) hb (srcs := forceLocs d s.n s.tree.length)
      (fn := fun vs cn => (((s.force rsqrt over Q mv G eps2).reading s.n vs).node cn).toOption)
      (g := fun l => match out'[l.2]? with | some r => .res r | none => m l) (ordered := ordered) (n := s.n) (π := π) (val := val) (by
        rintro l hl e
        simp only [forceLocs, List.mem_append, List.mem_map] at hl
        rcases hl with (hl | ⟨_, _, rfl⟩) | ⟨_, _, rfl⟩
        · obtain ⟨j, _, h, _⟩ := mem_partLocs.1 hl
          rw [h] at e; cases e
        · cases e
        · cases e)
      (fun t ht => by rw [m4 t (by simpa using ht), List.getElem_map])
      (fun cn hc => ⟨(h1 cn hc).1.le, (h1 cn hc).2⟩)
      (fun k hk => h2 k hk) (by
        intro cn hc
        simp only [hforce]
        rw [v1 cn hc]
        rfl)
      (fun k hk => (hix k hk).2.1) (fun i hi j hj e => by rw [← (hix i hi).2.2, ← (hix j hj).2.2, e])
      (fun i hi => ⟨ρ i, hρn i hi, hρ i hi⟩) hm5 (fun k hk => by simp only [hval k hk])
    obtain ⟨r, hs', hg⟩ := D.ok (B := cells s.n (.perm :: .out :: family .parts (d + 1)) ∪ cells s.tree.length [.tree, .props] ∪ cells s.crit.length [.crit]) (by
      rintro l ((hl | hl) | hl)
      · simp only [forceLocs, List.mem_append, List.mem_map, List.mem_range, Set.mem_ofPred_eq] at hl
        rcases hl with (hl | ⟨i, hi, rfl⟩) | ⟨i, hi, rfl⟩
        · obtain ⟨j, q1, q2, q3⟩ := mem_partLocs.1 hl
          exact .inl (.inl ⟨by simp [family, q2]; omega, q3⟩)
        · exact .inl (.inr ⟨by simp, hi⟩)
        · exact .inl (.inr ⟨by simp, hi⟩)
      · exact .inr hl
      · refine .inl (.inl ⟨?_, hl.2⟩)
        have := hl.1
        simp only [List.mem_cons, List.not_mem_nil, or_false] at this
        rcases this with e | e <;> simp [e])
    refine ⟨r, hs', fun i hi => ?_⟩
    simp only [List.length_map] at hi
    rw [hg (.out, i) ⟨by simp, by simp only; omega⟩]
    simp only [List.getElem?_eq_getElem hi, List.getElem_map]

end Forces
/-! ### Examples -/

/-- A memory with the given arrays. -/
def memOf {env : Env} {R : Type} (a : Name → List (Cell env R)) : Loc → Cell env R := fun l => (a l.1).getD l.2 .void

theorem memOf_has {env : Env} {R : Type} {a : Name → List (Cell env R)} {x : Name} {xs : List (Cell env R)} (h : a x = xs) : Has (memOf a) x xs := by
  intro i hi
  unfold memOf
  simp only [h]
  exact getD_eq hi _

/-- The memory of a tree with an input not yet sorted. -/
def memIn {env : Env} {R : Type} (parts : List (List env.F)) (codes perm last : List Nat) : Loc → Cell env R := memOf fun
  | .parts j => (parts.getD j []).map .val
  | .input j => (parts.getD j []).map .val
  | .codes => codes.map .num
  | .perm => perm.map .num
  | .lastPerm => last.map .num
  | _ => []

theorem memIn_parts {env : Env} {R : Type} {parts : List (List env.F)} {codes perm last : List Nat} : HasParts (memIn (R := R) parts codes perm last) parts :=
  fun j hj => memOf_has (by simp only; rw [getD_eq hj])

/-- The memory of a tree. -/
def memTree {env : Env} {R : Type} (s : TS env) : Loc → Cell env R := memOf fun
  | .parts j => (s.parts.getD j []).map .val
  | .perm => s.perm.map .num
  | .tree => s.tree.map .node
  | .props => s.props.map .props
  | .crit => s.crit.map .crit
  | _ => []

theorem memTree_parts {env : Env} {R : Type} {s : TS env} : HasParts (memTree (R := R) s) s.parts :=
  fun j hj => memOf_has (by simp only; rw [getD_eq hj])

/-- The codes of five particles, computed by three tasks; with a box that is too small some task throws. -/
example : (∃ r, Schedules (encodeP (gEnv .bh) (.fin 16) [[0, 1], [2], [3, 4]]) (memIn (R := Unit) (gInp .bh).parts [] [] []) (cells 5 (.codes :: family .parts 3)) (cells 5 [.codes]) (some r) ∧
      rawCodes (gEnv .bh) (.fin 16) (gInp .bh).parts 5 = .ok [975437824, 587464704, 939524096, 855900160, 707002368] ∧
      Has r .codes ([975437824, 587464704, 939524096, 855900160, 707002368].map .num)) ∧
    Schedules (encodeP (gEnv .bh) (.fin 4) [[0, 1], [2], [3, 4]]) (memIn (R := Unit) (gInp .bh).parts [] [] []) (cells 5 (.codes :: family .parts 3)) (cells 5 [.codes]) none := by
  have hb : Split 5 [[0, 1], [2], [3, 4]] := by unfold Split; decide
  have hl : ∀ v ∈ (gInp .bh).parts, v.length = 5 := by decide +kernel
  constructor
  · have h := C71_encode (env := gEnv .bh) (by decide +kernel) hl (memIn_parts (R := Unit) (codes := []) (perm := []) (last := [])) (.fin 16) hb
    have e : rawCodes (gEnv .bh) (.fin 16) (gInp .bh).parts 5 = .ok [975437824, 587464704, 939524096, 855900160, 707002368] := by decide +kernel
    rw [e] at h
    obtain ⟨r, h1, h2⟩ := h
    exact ⟨r, h1, e, h2⟩
  · have h := C71_encode (env := gEnv .bh) (by decide +kernel) hl (memIn_parts (R := Unit) (codes := []) (perm := []) (last := [])) (.fin 4) hb
    have e : rawCodes (gEnv .bh) (.fin 4) (gInp .bh).parts 5 = .error .invalidArg := by decide +kernel
    rw [e] at h
    exact h

theorem g_built : Construct (gInp .bh) (.ok (gS .bh)) := by
  have h : Construct (gInp .bh) (gInp .bh).exec := construct_exec (by decide +kernel)
  rwa [eq_okOr (d := TS.default _) (show isOk (gInp .bh).exec = true by decide +kernel)] at h

/-- The seven tasks after the sort, each a parallel loop in two blocks, one of them in reverse. -/
example : ∃ r, Schedules (permuteP (gEnv .bh) fun _ => [[4, 3], [0, 1, 2]]) (memIn (R := Unit) (gInp .bh).parts [975437824, 587464704, 939524096, 855900160, 707002368] [1, 4, 3, 2, 0] [])
      (cells 5 (permuteIn 3 ++ permuteOut 3)) (cells 5 (permuteOut 3)) (some r) ∧
    Has r .newCodes ([587464704, 707002368, 855900160, 939524096, 975437824].map .num) ∧ Has r .invPerm ([4, 0, 3, 2, 1].map .num) := by
  obtain ⟨raw, h1, h2⟩ := C71_construct (R := Unit) g_built (by decide +kernel)
  have e1 : rawCodes (gEnv .bh) (gS .bh).box (gInp .bh).parts (gS .bh).n = .ok [975437824, 587464704, 939524096, 855900160, 707002368] := by decide +kernel
  have e2 : (gS .bh).codes = [587464704, 707002368, 855900160, 939524096, 975437824] := by decide +kernel
  have e3 : (gS .bh).invPerm = [4, 0, 3, 2, 1] := by decide +kernel
  have e4 : (gS .bh).perm = [1, 4, 3, 2, 0] := by decide +kernel
  rw [e1, Except.ok.injEq] at h1
  subst h1
  obtain ⟨r, a, b, c, _⟩ := h2 _ (memIn_parts (codes := [975437824, 587464704, 939524096, 855900160, 707002368]) (perm := (gS .bh).perm) (last := [])) (memOf_has rfl) (memOf_has rfl)
    (fun _ => [[4, 3], [0, 1, 2]]) (fun _ => by rw [g_n]; unfold Split; decide)
  rw [g_n] at a
  rw [e4] at a
  rw [e2] at b
  rw [e3] at c
  exact ⟨r, a, b, c⟩

/-- The second update of the sample history: the permutation of the tree is not that of the last sort. -/
example : ∃ parts raw r, Schedules (syncP toyEnv fun _ => [[4, 3], [0, 1, 2]]) (memIn (R := Unit) parts raw toyS1.perm [0, 1, 3, 4, 2]) (cells 5 (syncIn 2 ++ syncOut 2)) (cells 5 (syncOut 2)) (some r) ∧
    Has r .newPerm (toyS2.perm.map .num) ∧ Has r .invPerm (toyS2.invPerm.map .num) ∧ toyS1.perm ≠ toyS2.perm := by
  have hr : Reach toyEnv toyS1 := .particles _ _ _ _ toy_reach toy_update1
  obtain ⟨parts, raw, _, _, h⟩ := C71_sync (R := Unit) hr toy_update2
  have e : toyS2.lastPerm = [0, 1, 3, 4, 2] := by decide +kernel
  have en : toyS1.n = 5 := by decide +kernel
  obtain ⟨r, a, _, b, c, _⟩ := h _ (memIn_parts (codes := raw) (perm := toyS1.perm) (last := toyS2.lastPerm)) (memOf_has rfl) (memOf_has rfl) (memOf_has rfl)
    (fun _ => [[4, 3], [0, 1, 2]]) (fun _ => by rw [en]; unfold Split; decide)
  rw [en, e] at a
  exact ⟨parts, raw, r, a, b, c, by decide +kernel⟩

/-- The properties of the seven nodes of the sample tree. -/
example : ∃ r, Schedules (propsP (gEnv .bh) (.fin 16) 5 [[0, 2, 4, 6], [1, 3, 5]]) (memTree (R := Unit) (gS .bh)) (cells 5 (family .parts 4) ∪ cells 7 [.tree, .props]) (cells 7 [.props]) (some r) ∧
    Has r .props ((gS .bh).props.map .props) := by
  have I := reach_inv (g_reach .bh)
  have et : (gS .bh).tree.length = 7 := by decide +kernel
  have eb : (gS .bh).box = .fin 16 := by decide +kernel
  have h := C71_props I.arr I.len (memTree_parts (R := Unit)) (memOf_has rfl) (gS .bh).box (bl := [[0, 2, 4, 6], [1, 3, 5]]) (by rw [et]; unfold Split; decide)
  rw [I.props] at h
  simp only at h
  rw [et, eb, g_n] at h
  exact h

/-- Partial trees of one and two nodes, lists of critical nodes one of which is empty. -/
example (a b c root : Node) (x y z : CNode) : ∃ r, Schedules (mergesP [2, 1] [1, 0, 2] [[1], [0]] [[0, 1, 2]] (fun i => [[[1], [0]], [[0]]].getD i []) (fun i => [[[0]], [], [[0, 1]]].getD i []))
      (memOf (env := toyEnv) (R := Unit) fun
        | .tree => [.node root]
        | .piece 0 => [.node a, .node b]
        | .piece 1 => [.node c]
        | .critPiece 0 => [.crit x]
        | .critPiece 2 => [.crit y, .crit z]
        | _ => []) (pieceLocs .piece [2, 1] ∪ pieceLocs .critPiece [1, 0, 2] ∪ cells 4 [.tree] ∪ cells 3 [.crit]) (destLocs .tree 1 [2, 1] ∪ destLocs .crit 0 [1, 0, 2]) (some r) ∧
    Has r .tree ([root, a, b, c].map .node) ∧ Has r .crit ([x, y, z].map .crit) :=
  C71_merge (trees := [[a, b], [c]]) (crits := [[x], [], [y, z]]) rfl
    (by intro i h; match i, h with | 0, _ => exact memOf_has rfl | 1, _ => exact memOf_has rfl)
    (by intro i h; match i, h with | 0, _ => exact memOf_has rfl | 1, _ => exact memOf_has rfl | 2, _ => exact memOf_has rfl)
    (show Split 2 [[1], [0]] by unfold Split; decide) (show Split 3 [[0, 1, 2]] by unfold Split; decide)
    (by intro i h; match i, h with | 0, _ => exact (show Split 2 [[1], [0]] by unfold Split; decide) | 1, _ => exact (show Split 1 [[0]] by unfold Split; decide))
    (by intro i h; match i, h with | 0, _ => exact (show Split 1 [[0]] by unfold Split; decide) | 1, _ => exact (show Split 0 [] by unfold Split; decide) | 2, _ => exact (show Split 2 [[0, 1]] by unfold Split; decide))

/-- The potentials of the five particles of the sample tree, ordered, from four critical nodes in two blocks. -/
example : ∃ r, Schedules (forceP ((gS .bh).force none (maskedShift 32) .pot (.fin (16 / 9)) (.fin 2) (.fin 0)) 5 7 true [[3, 1], [0, 2]]) (memTree (gS .bh))
      (cells 5 (.perm :: .out :: family .parts 4) ∪ cells 7 [.tree, .props] ∪ cells 4 [.crit]) (cells 5 [.out]) (some r) ∧
    Has r .out ([-251 / 60, -122 / 15, -72 / 5, -182 / 15, -175 / 12].map (fun v => .res ⟨[], [.fin v]⟩)) := by
  obtain ⟨out', h1, h2⟩ := C71_forces g_simd g_supp (g_reach .bh) (g_size .bh) (over := maskedShift 32) (maskedShift_small _) (g_room .bh none) .pot
    (theta := .fin (3 / 4)) (G := .fin 2) (eps := .fin 0) (mv := .fin (16 / 9)) (eps2 := .fin 0) (split := []) (by decide +kernel) rfl (by decide +kernel) true
    (out := List.replicate 5 ⟨[], [.nan]⟩) (by rw [g_n]; rfl)
  have ec : (gS .bh).crit.length = 4 := by decide +kernel
  have et : (gS .bh).tree.length = 7 := by decide +kernel
  have e := h1 [3, 1, 0, 2] (by rw [ec]; decide)
  rw [show (gS .bh).accPot none (maskedShift 32) .pot true (.fin (3 / 4)) (.fin 2) (.fin 0) [] [3, 1, 0, 2] (List.replicate 5 ⟨[], [.nan]⟩) =
      .ok ([-251 / 60, -122 / 15, -72 / 5, -182 / 15, -175 / 12].map (fun v => ⟨[], [.fin v]⟩)) by decide +kernel, Except.ok.injEq] at e
  subst e
  obtain ⟨r, a, b⟩ := h2 _ memTree_parts (memOf_has rfl) (memOf_has rfl) (memOf_has rfl) (memOf_has rfl) [[3, 1], [0, 2]] (by rw [ec]; unfold Split; decide)
  rw [g_n, et, ec] at a
  rw [List.map_map] at b
  exact ⟨r, a, b⟩

/-- The input of the sample tree, and an initial permutation. -/
example : (∃ r, Schedules (inputP (gEnv .bh) fun _ => [[2], [0, 1], [4, 3]]) (memIn (R := Unit) (gInp .bh).parts [] [] []) (cells 5 (family .input 4 ++ family .parts 4)) (cells 5 (family .parts 4)) (some r) ∧
      HasParts r (gInp .bh).parts) ∧
    ∃ r, Schedules (iotaP .perm [[2], [0, 1], [4, 3]]) (memIn (env := gEnv .bh) (R := Unit) [] [] [] []) (cells 5 [.perm]) (cells 5 [.perm]) (some r) ∧ Has r .perm ([0, 1, 2, 3, 4].map .num) :=
  ⟨C71_input (n := 5) (by decide +kernel) (by decide +kernel) (fun j hj => memOf_has (by simp only; rw [getD_eq hj])) (fun _ => by unfold Split; decide), C71_iota (n := 5) (by unfold Split; decide) _⟩

/-- The requirements do not hold of every program: if a permutation had the same value twice, the tasks that invert it would write to the same location at the same time. -/
example : ∃ k p' m', Exec k (invP (env := toyEnv) (R := Unit) .perm [[0], [1]]) (memIn [] [] [1, 1] []) p' m' ∧ Race p' m' :=
  ⟨2, _, _, .step (.head _) (.step (.tail _ (.head _)) (.refl _ _)), 0, 1, _, _, by decide, rfl, rfl, rfl, .inl rfl⟩

end Rakau
