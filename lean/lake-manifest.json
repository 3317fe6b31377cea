{"version": "1.2.0",
 "packagesDir": ".lake/packages",
 "packages": [],
 "name": "verif",
 "lakeDir": ".lake",
 "fixedToolchain": false}
