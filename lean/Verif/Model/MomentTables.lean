import Verif.Model.Square

/-!
# Model of the tables of DOS moments of the remaining lattices
-/

namespace Gftool.Model

/-- Body of the functions `dos_moment` without symmetry, e.g. lattice/fcc.py:243-247. -/
noncomputable def momentFromTableAll (table : List (ℤ × ℚ)) (m : ℤ) (D : ℝ) : Except Err ℝ :=
  match table.lookup m with
  | some c => .ok ((c : ℝ) * D ^ m)
  | none => .error .notImplemented

/-- `dos_moment_coefficients`, lattice/sc.py:210-221. -/
def scMomentTable : List (ℤ × ℚ) :=
  [(2, 1 / 6), (4, 5 / 72), (6, 0.039866255144032922), (8, 0.026631087105624143), (10, 0.01939193244170096),
   (12, 0.014928527975706617), (14, 0.011948953080810005), (16, 0.0098437704453147492),
   (18, 0.0082915600061680671), (20, 0.0071083541490866967)]

/-- `dos_moment`, lattice/sc.py:251-257. -/
noncomputable def scDosMoment (m : ℤ) (D : ℝ) : Except Err ℝ := momentFromTable scMomentTable m D

/-- `dos_moment_coefficients`, lattice/bcc.py:167-178. -/
def bccMomentTable : List (ℤ × ℚ) :=
  [(2, 1 / 8), (4, 27 / 512), (6, 5 ^ 3 / 2 ^ 12), (8, 0.020444393157959), (10, 0.0149039626121521),
   (12, 0.0114798462018371), (14, 0.00919140747282654), (16, 0.0075734863820287), (18, 0.00638006491682219),
   (20, 0.00547010815806043)]

/-- `dos_moment`, lattice/bcc.py:208-214. -/
noncomputable def bccDosMoment (m : ℤ) (D : ℝ) : Except Err ℝ := momentFromTable bccMomentTable m D

/-- `dos_moment_coefficients`, lattice/fcc.py:191-213. -/
def fccMomentTable : List (ℤ × ℚ) :=
  [(0, 1), (1, 0), (2, 3 / 16), (3, 3 / 32), (4, 135 / 1024), (5, 135 / 1024), (6, 0.1611328125),
   (7, 0.1922607421875), (8, 0.24070143699646), (9, 0.305163860321045), (10, 0.394462153315544),
   (11, 0.516299419105052), (12, 0.683690124191343), (13, 0.913928582333027), (14, 1.23181895411108),
   (15, 1.67210463207448), (16, 2.28395076888283), (17, 3.13686893977359), (18, 4.32941325997849),
   (19, 6.00152324929046), (20, 8.35226611969712)]

/-- `dos_moment`, lattice/fcc.py:243-247. -/
noncomputable def fccDosMoment (m : ℤ) (D : ℝ) : Except Err ℝ := momentFromTableAll fccMomentTable m D

/-- `dos_moment_coefficients`, lattice/triangular.py:202-223. -/
def triangularMomentTable : List (ℤ × ℚ) :=
  [(1, 0), (2, 8 / 27), (3, 32 / 243), (4, 160 / 729), (5, 0.19509221155311685), (6, 0.24567167380762861),
   (7, 0.26975713202406278), (8, 0.32595653452907584), (9, 0.38409863242932391), (10, 0.46646891718728872),
   (11, 0.5662391742471257), (12, 0.69580884826902741), (13, 0.85849121900290751), (14, 1.06625635837817),
   (15, 1.32983322599435), (16, 1.66594704229184), (17, 2.09437852592774), (18, 2.64177488421009),
   (19, 3.34185798350861), (20, 4.23865856734991)]

/-- `dos_moment`, lattice/triangular.py:253-257. -/
noncomputable def triangularDosMoment (m : ℤ) (D : ℝ) : Except Err ℝ := momentFromTableAll triangularMomentTable m D

/-- `dos_moment_coefficients`, lattice/honeycomb.py:166-177. -/
def honeycombMomentTable : List (ℤ × ℚ) :=
  [(2, 1 / 3), (4, 5 / 27), (6, 31 / 243), (8, 71 / 729), (10, 0.0787989635726261), (12, 0.0661766781260761),
   (14, 0.0570430207680627), (16, 0.0501259782365305), (18, 0.0447055266609815), (20, 0.0403432070418971)]

/-- `dos_moment`, lattice/honeycomb.py:207-213. -/
noncomputable def honeycombDosMoment (m : ℤ) (D : ℝ) : Except Err ℝ := momentFromTable honeycombMomentTable m D

/-- `dos_moment_coefficients`, lattice/kagome.py:188-210. -/
def kagomeMomentTable : List (ℤ × ℚ) :=
  [(0, 1), (1, 0), (2, 4 / 9), (3, 4 / 27), (4, 28 / 81), (5, 20 / 81), (6, 88 / 243), (7, 0.358481938728852),
   (8, 0.457857033988721), (9, 0.518416907991668), (10, 0.640552761266067), (11, 0.766504654326632),
   (12, 0.946076798741534), (13, 1.16111979818393), (14, 1.44297318255669), (15, 1.79568687705621),
   (16, 2.248655455081), (17, 2.82371565536896), (18, 3.55975081121742), (19, 4.49985828877178),
   (20, 5.70448609391951)]

/-- `dos_moment`, lattice/kagome.py:240-244. -/
noncomputable def kagomeDosMoment (m : ℤ) (D : ℝ) : Except Err ℝ := momentFromTableAll kagomeMomentTable m D

/-- `dos_moment_coefficients`, lattice/lieb.py:172-184. -/
def liebMomentTable : List (ℤ × ℚ) :=
  [(0, 1), (2, 1 / 3), (4, 5 / 24), (6, 7 / 48), (8, 0.110026041666667), (10, 0.0875651041666667),
   (12, 0.0724690755208333), (14, 0.0617472330729167), (16, 0.0537835756937663), (18, 0.0476494630177816),
   (20, 0.0427826742331187)]

/-- `dos_moment`, lattice/lieb.py:214-220. -/
noncomputable def liebDosMoment (m : ℤ) (D : ℝ) : Except Err ℝ := momentFromTable liebMomentTable m D

end Gftool.Model
