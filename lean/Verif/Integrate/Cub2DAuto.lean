/-!
# Model of the generated tables of `inference.integrate._cub2d_auto`

Every decimal constant of the tables is an integer multiple of `10^-34`; the tables below list these integers.
-/

namespace Verif.Cub

/-- integrate/_cub2d_auto.py:20-24, `e2r2_3_4a_absc`. -/
def e2r2_3_4a_absc : List (Int × Int) :=
  [(10000000000000000000000000000000000, 0),
   (-10000000000000000000000000000000000, 0),
   (0, 10000000000000000000000000000000000),
   (0, -10000000000000000000000000000000000)]

/-- integrate/_cub2d_auto.py:26-28, `e2r2_3_4a_wts`. -/
def e2r2_3_4a_wts : List Int :=
  [7853981633974482800000000000000000,
   7853981633974482800000000000000000,
   7853981633974482800000000000000000,
   7853981633974482800000000000000000]

/-- integrate/_cub2d_auto.py:37-58, `e2r2_9_21_absc`. -/
def e2r2_9_21_absc : List (Int × Int) :=
  [(0, 0),
   (15381890013208515000000000000000000, 15381890013208515000000000000000000),
   (-15381890013208515000000000000000000, 15381890013208515000000000000000000),
   (15381890013208515000000000000000000, -15381890013208515000000000000000000),
   (-15381890013208515000000000000000000, -15381890013208515000000000000000000),
   (4309139822882689900000000000000000, 10403183802565386000000000000000000),
   (-4309139822882689900000000000000000, 10403183802565386000000000000000000),
   (4309139822882689900000000000000000, -10403183802565386000000000000000000),
   (-4309139822882689900000000000000000, -10403183802565386000000000000000000),
   (10403183802565386000000000000000000, 4309139822882689900000000000000000),
   (-10403183802565386000000000000000000, 4309139822882689900000000000000000),
   (10403183802565386000000000000000000, -4309139822882689900000000000000000),
   (-10403183802565386000000000000000000, -4309139822882689900000000000000000),
   (5409373482579437100000000000000000, 21069972930282899000000000000000000),
   (-5409373482579437100000000000000000, 21069972930282899000000000000000000),
   (5409373482579437100000000000000000, -21069972930282899000000000000000000),
   (-5409373482579437100000000000000000, -21069972930282899000000000000000000),
   (21069972930282899000000000000000000, 5409373482579437100000000000000000),
   (-21069972930282899000000000000000000, 5409373482579437100000000000000000),
   (21069972930282899000000000000000000, -5409373482579437100000000000000000),
   (-21069972930282899000000000000000000, -5409373482579437100000000000000000)]

/-- integrate/_cub2d_auto.py:60-71, `e2r2_9_21_wts`. -/
def e2r2_9_21_wts : List Int :=
  [10471975511965976000000000000000000,
   122380168799474630000000000000000,
   122380168799474630000000000000000,
   122380168799474630000000000000000,
   122380168799474630000000000000000,
   2442621541642133200000000000000000,
   2442621541642133200000000000000000,
   2442621541642133200000000000000000,
   2442621541642133200000000000000000,
   2442621541642133200000000000000000,
   2442621541642133200000000000000000,
   2442621541642133200000000000000000,
   2442621541642133200000000000000000,
   114182251949623700000000000000000,
   114182251949623700000000000000000,
   114182251949623700000000000000000,
   114182251949623700000000000000000,
   114182251949623700000000000000000,
   114182251949623700000000000000000,
   114182251949623700000000000000000,
   114182251949623700000000000000000]

/-- integrate/_cub2d_auto.py:80-108, `e2r2_11_28a_absc`. -/
def e2r2_11_28a_absc : List (Int × Int) :=
  [(27578163962570077000000000000000000, 0),
   (-27578163962570077000000000000000000, 0),
   (0, 27578163962570077000000000000000000),
   (0, -27578163962570077000000000000000000),
   (17320508075688772000000000000000000, 0),
   (-17320508075688772000000000000000000, 0),
   (0, 17320508075688772000000000000000000),
   (0, -17320508075688772000000000000000000),
   (6280515301597557900000000000000000, 0),
   (-6280515301597557900000000000000000, 0),
   (0, 6280515301597557900000000000000000),
   (0, -6280515301597557900000000000000000),
   (12247448713915889000000000000000000, 21213203435596424000000000000000000),
   (-12247448713915889000000000000000000, 21213203435596424000000000000000000),
   (12247448713915889000000000000000000, -21213203435596424000000000000000000),
   (-12247448713915889000000000000000000, -21213203435596424000000000000000000),
   (21213203435596424000000000000000000, 12247448713915889000000000000000000),
   (-21213203435596424000000000000000000, 12247448713915889000000000000000000),
   (21213203435596424000000000000000000, -12247448713915889000000000000000000),
   (-21213203435596424000000000000000000, -12247448713915889000000000000000000),
   (7071067811865475700000000000000000, 12247448713915889000000000000000000),
   (-7071067811865475700000000000000000, 12247448713915889000000000000000000),
   (7071067811865475700000000000000000, -12247448713915889000000000000000000),
   (-7071067811865475700000000000000000, -12247448713915889000000000000000000),
   (12247448713915889000000000000000000, 7071067811865475700000000000000000),
   (-12247448713915889000000000000000000, 7071067811865475700000000000000000),
   (12247448713915889000000000000000000, -7071067811865475700000000000000000),
   (-12247448713915889000000000000000000, -7071067811865475700000000000000000)]

/-- integrate/_cub2d_auto.py:110-124, `e2r2_11_28a_wts`. -/
def e2r2_11_28a_wts : List Int :=
  [8176645817675417600000000000000,
   8176645817675417600000000000000,
   8176645817675417600000000000000,
   8176645817675417600000000000000,
   436332312998582370000000000000000,
   436332312998582370000000000000000,
   436332312998582370000000000000000,
   436332312998582370000000000000000,
   5373255214498173800000000000000000,
   5373255214498173800000000000000000,
   5373255214498173800000000000000000,
   5373255214498173800000000000000000,
   36361026083215199000000000000000,
   36361026083215199000000000000000,
   36361026083215199000000000000000,
   36361026083215199000000000000000,
   36361026083215199000000000000000,
   36361026083215199000000000000000,
   36361026083215199000000000000000,
   36361026083215199000000000000000,
   981747704246810350000000000000000,
   981747704246810350000000000000000,
   981747704246810350000000000000000,
   981747704246810350000000000000000,
   981747704246810350000000000000000,
   981747704246810350000000000000000,
   981747704246810350000000000000000,
   981747704246810350000000000000000]

/-- integrate/_cub2d_auto.py:133-145, `e2r2_7_12_absc`. -/
def e2r2_7_12_absc : List (Int × Int) :=
  [(17320508075688772000000000000000000, 0),
   (-17320508075688772000000000000000000, 0),
   (0, 17320508075688772000000000000000000),
   (0, -17320508075688772000000000000000000),
   (5352331346596348500000000000000000, 5352331346596348500000000000000000),
   (-5352331346596348500000000000000000, 5352331346596348500000000000000000),
   (5352331346596348500000000000000000, -5352331346596348500000000000000000),
   (-5352331346596348500000000000000000, -5352331346596348500000000000000000),
   (14012585384440734000000000000000000, 14012585384440734000000000000000000),
   (-14012585384440734000000000000000000, 14012585384440734000000000000000000),
   (14012585384440734000000000000000000, -14012585384440734000000000000000000),
   (-14012585384440734000000000000000000, -14012585384440734000000000000000000)]

/-- integrate/_cub2d_auto.py:147-153, `e2r2_7_12_wts`. -/
def e2r2_7_12_wts : List Int :=
  [872664625997164740000000000000000,
   872664625997164740000000000000000,
   872664625997164740000000000000000,
   872664625997164740000000000000000,
   6612798384451203900000000000000000,
   6612798384451203900000000000000000,
   6612798384451203900000000000000000,
   6612798384451203900000000000000000,
   368518623526114110000000000000000,
   368518623526114110000000000000000,
   368518623526114110000000000000000,
   368518623526114110000000000000000]

/-- integrate/_cub2d_auto.py:162-166, `e2_r2_3_4b_absc`. -/
def e2_r2_3_4b_absc : List (Int × Int) :=
  [(7071067811865475700000000000000000, 7071067811865475700000000000000000),
   (-7071067811865475700000000000000000, 7071067811865475700000000000000000),
   (7071067811865475700000000000000000, -7071067811865475700000000000000000),
   (-7071067811865475700000000000000000, -7071067811865475700000000000000000)]

/-- integrate/_cub2d_auto.py:168-170, `e2_r2_3_4b_wts`. -/
def e2_r2_3_4b_wts : List Int :=
  [7853981633974482800000000000000000,
   7853981633974482800000000000000000,
   7853981633974482800000000000000000,
   7853981633974482800000000000000000]

/-- integrate/_cub2d_auto.py:179-215, `e2r2_13_36_absc`. -/
def e2r2_13_36_absc : List (Int × Int) :=
  [(23589322619806810000000000000000000, 0),
   (-23589322619806810000000000000000000, 0),
   (0, 23589322619806810000000000000000000),
   (0, -23589322619806810000000000000000000),
   (13764866796963506000000000000000000, 0),
   (-13764866796963506000000000000000000, 0),
   (0, 13764866796963506000000000000000000),
   (0, -13764866796963506000000000000000000),
   (5460844152585403500000000000000000, 0),
   (-5460844152585403500000000000000000, 0),
   (0, 5460844152585403500000000000000000),
   (0, -5460844152585403500000000000000000),
   (19855313399178849000000000000000000, 19855313399178849000000000000000000),
   (-19855313399178849000000000000000000, 19855313399178849000000000000000000),
   (19855313399178849000000000000000000, -19855313399178849000000000000000000),
   (-19855313399178849000000000000000000, -19855313399178849000000000000000000),
   (8462499884480199100000000000000000, 8462499884480199100000000000000000),
   (-8462499884480199100000000000000000, 8462499884480199100000000000000000),
   (8462499884480199100000000000000000, -8462499884480199100000000000000000),
   (-8462499884480199100000000000000000, -8462499884480199100000000000000000),
   (9962534261727632500000000000000000, 30304360653685789000000000000000000),
   (-9962534261727632500000000000000000, 30304360653685789000000000000000000),
   (9962534261727632500000000000000000, -30304360653685789000000000000000000),
   (-9962534261727632500000000000000000, -30304360653685789000000000000000000),
   (30304360653685789000000000000000000, 9962534261727632500000000000000000),
   (-30304360653685789000000000000000000, 9962534261727632500000000000000000),
   (30304360653685789000000000000000000, -9962534261727632500000000000000000),
   (-30304360653685789000000000000000000, -9962534261727632500000000000000000),
   (9318240227761998000000000000000000, 17792467389053190000000000000000000),
   (-9318240227761998000000000000000000, 17792467389053190000000000000000000),
   (9318240227761998000000000000000000, -17792467389053190000000000000000000),
   (-9318240227761998000000000000000000, -17792467389053190000000000000000000),
   (17792467389053190000000000000000000, 9318240227761998000000000000000000),
   (-17792467389053190000000000000000000, 9318240227761998000000000000000000),
   (17792467389053190000000000000000000, -9318240227761998000000000000000000),
   (-17792467389053190000000000000000000, -9318240227761998000000000000000000)]

/-- integrate/_cub2d_auto.py:217-235, `e2r2_13_36_wts`. -/
def e2r2_13_36_wts : List Int :=
  [40553465034375560000000000000000,
   40553465034375560000000000000000,
   40553465034375560000000000000000,
   40553465034375560000000000000000,
   1196271413857638900000000000000000,
   1196271413857638900000000000000000,
   1196271413857638900000000000000000,
   1196271413857638900000000000000000,
   4454894582155266000000000000000000,
   4454894582155266000000000000000000,
   4454894582155266000000000000000000,
   4454894582155266000000000000000000,
   5091235219162566300000000000000,
   5091235219162566300000000000000,
   5091235219162566300000000000000,
   5091235219162566300000000000000,
   1813506924371355300000000000000000,
   1813506924371355300000000000000000,
   1813506924371355300000000000000000,
   1813506924371355300000000000000000,
   757446940430530350000000000000,
   757446940430530350000000000000,
   757446940430530350000000000000,
   757446940430530350000000000000,
   757446940430530350000000000000,
   757446940430530350000000000000,
   757446940430530350000000000000,
   757446940430530350000000000000,
   171074559727911750000000000000000,
   171074559727911750000000000000000,
   171074559727911750000000000000000,
   171074559727911750000000000000000,
   171074559727911750000000000000000,
   171074559727911750000000000000000,
   171074559727911750000000000000000,
   171074559727911750000000000000000]

/-- integrate/_cub2d_auto.py:244-253, `e2r2_5_9b_absc`. -/
def e2r2_5_9b_absc : List (Int × Int) :=
  [(0, 0),
   (13065629648763766000000000000000000, 5411961001461970100000000000000000),
   (-13065629648763766000000000000000000, 5411961001461970100000000000000000),
   (13065629648763766000000000000000000, -5411961001461970100000000000000000),
   (-13065629648763766000000000000000000, -5411961001461970100000000000000000),
   (5411961001461970100000000000000000, 13065629648763766000000000000000000),
   (-5411961001461970100000000000000000, 13065629648763766000000000000000000),
   (5411961001461970100000000000000000, -13065629648763766000000000000000000),
   (-5411961001461970100000000000000000, -13065629648763766000000000000000000)]

/-- integrate/_cub2d_auto.py:255-260, `e2r2_5_9b_wts`. -/
def e2r2_5_9b_wts : List Int :=
  [15707963267948966000000000000000000,
   1963495408493620700000000000000000,
   1963495408493620700000000000000000,
   1963495408493620700000000000000000,
   1963495408493620700000000000000000,
   1963495408493620700000000000000000,
   1963495408493620700000000000000000,
   1963495408493620700000000000000000,
   1963495408493620700000000000000000]

/-- integrate/_cub2d_auto.py:269-278, `e2r2_5_9a_absc`. -/
def e2r2_5_9a_absc : List (Int × Int) :=
  [(10000000000000000000000000000000000, 10000000000000000000000000000000000),
   (-10000000000000000000000000000000000, 10000000000000000000000000000000000),
   (10000000000000000000000000000000000, -10000000000000000000000000000000000),
   (-10000000000000000000000000000000000, -10000000000000000000000000000000000),
   (0, 0),
   (14142135623730949000000000000000000, 0),
   (-14142135623730949000000000000000000, 0),
   (0, 14142135623730949000000000000000000),
   (0, -14142135623730949000000000000000000)]

/-- integrate/_cub2d_auto.py:280-285, `e2r2_5_9a_wts`. -/
def e2r2_5_9a_wts : List Int :=
  [1963495408493620700000000000000000,
   1963495408493620700000000000000000,
   1963495408493620700000000000000000,
   1963495408493620700000000000000000,
   15707963267948966000000000000000000,
   1963495408493620700000000000000000,
   1963495408493620700000000000000000,
   1963495408493620700000000000000000,
   1963495408493620700000000000000000]

/-- integrate/_cub2d_auto.py:294-335, `e2r2_13_41_absc`. -/
def e2r2_13_41_absc : List (Int × Int) :=
  [(24494897427831779000000000000000000, 0),
   (19816788294587098000000000000000000, 14397739464496353000000000000000000),
   (7569339580671209400000000000000000, 23296031814720810000000000000000000),
   (-7569339580671204900000000000000000, 23296031814720810000000000000000000),
   (-19816788294587093000000000000000000, 14397739464496355000000000000000000),
   (-24494897427831779000000000000000000, 2999759773043692300),
   (-19816788294587100000000000000000000, -14397739464496351000000000000000000),
   (-7569339580671211600000000000000000, -23296031814720810000000000000000000),
   (7569339580671201600000000000000000, -23296031814720810000000000000000000),
   (19816788294587091000000000000000000, -14397739464496360000000000000000000),
   (9289765351647408800000000000000000, 0),
   (7515578043238313500000000000000000, 5460387070955947700000000000000000),
   (2870695367414609600000000000000000, 8835091872537206300000000000000000),
   (-2870695367414608000000000000000000, 8835091872537207400000000000000000),
   (-7515578043238312400000000000000000, 5460387070955948800000000000000000),
   (-9289765351647408800000000000000000, 1137668140272498500),
   (-7515578043238314600000000000000000, -5460387070955946600000000000000000),
   (-2870695367414610700000000000000000, -8835091872537206300000000000000000),
   (2870695367414606800000000000000000, -8835091872537207400000000000000000),
   (7515578043238311200000000000000000, -5460387070955949900000000000000000),
   (17162505238049739000000000000000000, 0),
   (13884758403631292000000000000000000, 10087867471317957000000000000000000),
   (5303505784606423700000000000000000, 16322512442596910000000000000000000),
   (-5303505784606420400000000000000000, 16322512442596910000000000000000000),
   (-13884758403631290000000000000000000, 10087867471317959000000000000000000),
   (-17162505238049739000000000000000000, 2101800710512729500),
   (-13884758403631294000000000000000000, -10087867471317955000000000000000000),
   (-5303505784606424900000000000000000, -16322512442596910000000000000000000),
   (5303505784606418200000000000000000, -16322512442596910000000000000000000),
   (13884758403631288000000000000000000, -10087867471317962000000000000000000),
   (30727002354041089000000000000000000, 0),
   (24858667090618258000000000000000000, 18060878830861458000000000000000000),
   (9495165913597714000000000000000000, 29223115815027301000000000000000000),
   (-9495165913597708500000000000000000, 29223115815027301000000000000000000),
   (-24858667090618254000000000000000000, 18060878830861460000000000000000000),
   (-30727002354041089000000000000000000, 3762972508026960700),
   (-24858667090618258000000000000000000, -18060878830861453000000000000000000),
   (-9495165913597717300000000000000000, -29223115815027301000000000000000000),
   (9495165913597705100000000000000000, -29223115815027301000000000000000000),
   (24858667090618249000000000000000000, -18060878830861464000000000000000000),
   (0, 0)]

/-- integrate/_cub2d_auto.py:337-358, `e2r2_13_41_wts`. -/
def e2r2_13_41_wts : List Int :=
  [24240684055476798000000000000000,
   24240684055476798000000000000000,
   24240684055476798000000000000000,
   24240684055476798000000000000000,
   24240684055476798000000000000000,
   24240684055476798000000000000000,
   24240684055476798000000000000000,
   24240684055476798000000000000000,
   24240684055476798000000000000000,
   24240684055476798000000000000000,
   1940444455273486200000000000000000,
   1940444455273486200000000000000000,
   1940444455273486200000000000000000,
   1940444455273486200000000000000000,
   1940444455273486200000000000000000,
   1940444455273486200000000000000000,
   1940444455273486200000000000000000,
   1940444455273486200000000000000000,
   1940444455273486200000000000000000,
   1940444455273486200000000000000000,
   444865531706299530000000000000000,
   444865531706299530000000000000000,
   444865531706299530000000000000000,
   444865531706299530000000000000000,
   444865531706299530000000000000000,
   444865531706299530000000000000000,
   444865531706299530000000000000000,
   444865531706299530000000000000000,
   444865531706299530000000000000000,
   444865531706299530000000000000000,
   1185358281905124200000000000000,
   1185358281905124200000000000000,
   1185358281905124200000000000000,
   1185358281905124200000000000000,
   1185358281905124200000000000000,
   1185358281905124200000000000000,
   1185358281905124200000000000000,
   1185358281905124200000000000000,
   1185358281905124200000000000000,
   1185358281905124200000000000000,
   7308566242726255400000000000000000]

/-- integrate/_cub2d_auto.py:367-386, `e2r2_9_19a_absc`. -/
def e2r2_9_19a_absc : List (Int × Int) :=
  [(20000000000000000000000000000000000, 0),
   (10000000000000002000000000000000000, 17320508075688772000000000000000000),
   (-9999999999999996700000000000000000, 17320508075688774000000000000000000),
   (-20000000000000000000000000000000000, 2449293598294706400),
   (-10000000000000009000000000000000000, -17320508075688767000000000000000000),
   (9999999999999986700000000000000000, -17320508075688781000000000000000000),
   (11024690870412086000000000000000000, 0),
   (5512345435206044100000000000000000, 9547662362647240100000000000000000),
   (-5512345435206040800000000000000000, 9547662362647242300000000000000000),
   (-11024690870412086000000000000000000, 1350135238603920900),
   (-5512345435206047500000000000000000, -9547662362647237900000000000000000),
   (5512345435206035300000000000000000, -9547662362647245700000000000000000),
   (23752273089667399000000000000000000, 0),
   (11876136544833702000000000000000000, 20570071893277464000000000000000000),
   (-11876136544833695000000000000000000, 20570071893277468000000000000000000),
   (-23752273089667399000000000000000000, 2908814521173499400),
   (-11876136544833711000000000000000000, -20570071893277460000000000000000000),
   (11876136544833684000000000000000000, -20570071893277473000000000000000000),
   (0, 0)]

/-- integrate/_cub2d_auto.py:388-398, `e2r2_9_19a_wts`. -/
def e2r2_9_19a_wts : List Int :=
  [245436926061702590000000000000000,
   245436926061702590000000000000000,
   245436926061702590000000000000000,
   245436926061702590000000000000000,
   245436926061702590000000000000000,
   245436926061702590000000000000000,
   3244732027463429500000000000000000,
   3244732027463429500000000000000000,
   3244732027463429500000000000000000,
   3244732027463429500000000000000000,
   3244732027463429500000000000000000,
   3244732027463429500000000000000000,
   55031089588349581000000000000000,
   55031089588349581000000000000000,
   55031089588349581000000000000000,
   55031089588349581000000000000000,
   55031089588349581000000000000000,
   55031089588349581000000000000000,
   10144726277217040000000000000000000]

/-- integrate/_cub2d_auto.py:407-435, `e2r2_11_28c_absc`. -/
def e2r2_11_28c_absc : List (Int × Int) :=
  [(22360679774997898000000000000000000, 0),
   (15811388300841895000000000000000000, 15811388300841898000000000000000000),
   (1369196745660506700, 22360679774997898000000000000000000),
   (-15811388300841895000000000000000000, 15811388300841898000000000000000000),
   (-22360679774997898000000000000000000, 2738393491321013400),
   (-15811388300841902000000000000000000, -15811388300841893000000000000000000),
   (-4107590236981519900, -22360679774997898000000000000000000),
   (15811388300841893000000000000000000, -15811388300841902000000000000000000),
   (13765979318520745000000000000000000, 0),
   (842923125477754630, 13765979318520745000000000000000000),
   (-13765979318520745000000000000000000, 1685846250955509300),
   (-2528769376433263500, -13765979318520745000000000000000000),
   (26825150931410771000000000000000000, 0),
   (1642566761239841900, 26825150931410771000000000000000000),
   (-26825150931410771000000000000000000, 3285133522479683800),
   (-4927700283719526200, -26825150931410771000000000000000000),
   (6179111666549792500000000000000000, 0),
   (378361466200713520, 6179111666549792500000000000000000),
   (-6179111666549792500000000000000000, 756722932401427040),
   (-1135084398602140500, -6179111666549792500000000000000000),
   (15261898960020961000000000000000000, 0),
   (934521785514999380, 15261898960020961000000000000000000),
   (-15261898960020961000000000000000000, 1869043571029998800),
   (-2803565356544998100, -15261898960020961000000000000000000),
   (29220203379272203000000000000000000, 0),
   (1789221426943018800, 29220203379272203000000000000000000),
   (-29220203379272203000000000000000000, 3578442853886037600),
   (-5367664280829055900, -29220203379272203000000000000000000)]

/-- integrate/_cub2d_auto.py:437-451, `e2r2_11_28c_wts`. -/
def e2r2_11_28c_wts : List Int :=
  [75398223686155034000000000000000,
   75398223686155034000000000000000,
   75398223686155034000000000000000,
   75398223686155034000000000000000,
   75398223686155034000000000000000,
   75398223686155034000000000000000,
   75398223686155034000000000000000,
   75398223686155034000000000000000,
   1513726759802379600000000000000000,
   1513726759802379600000000000000000,
   1513726759802379600000000000000000,
   1513726759802379600000000000000000,
   10294743039068897000000000000000,
   10294743039068897000000000000000,
   10294743039068897000000000000000,
   10294743039068897000000000000000,
   5268040323785461200000000000000000,
   5268040323785461200000000000000000,
   5268040323785461200000000000000000,
   5268040323785461200000000000000000,
   907302674091982900000000000000000,
   907302674091982900000000000000000,
   907302674091982900000000000000000,
   907302674091982900000000000000000,
   3820685883279976500000000000000,
   3820685883279976500000000000000,
   3820685883279976500000000000000,
   3820685883279976500000000000000]

/-- integrate/_cub2d_auto.py:459-474: `rule_dict`, without the functions (which do what calling an object with unit scales does, apart from its factor). -/
def ruleDict : List (String × List (Int × Int) × List Int) :=
  [("e2r2_3_4a", e2r2_3_4a_absc, e2r2_3_4a_wts),
   ("e2r2_9_21", e2r2_9_21_absc, e2r2_9_21_wts),
   ("e2r2_11_28a", e2r2_11_28a_absc, e2r2_11_28a_wts),
   ("e2r2_7_12", e2r2_7_12_absc, e2r2_7_12_wts),
   ("e2_r2_3_4b", e2_r2_3_4b_absc, e2_r2_3_4b_wts),
   ("e2r2_13_36", e2r2_13_36_absc, e2r2_13_36_wts),
   ("e2r2_5_9b", e2r2_5_9b_absc, e2r2_5_9b_wts),
   ("e2r2_5_9a", e2r2_5_9a_absc, e2r2_5_9a_wts),
   ("e2r2_13_41", e2r2_13_41_absc, e2r2_13_41_wts),
   ("e2r2_9_19a", e2r2_9_19a_absc, e2r2_9_19a_wts),
   ("e2r2_11_28c", e2r2_11_28c_absc, e2r2_11_28c_wts)]

end Verif.Cub
